import Verif.SdpEnd.Spec
import Verif.SdpEnd.Bounds
import Mathlib.Algebra.BigOperators.Group.List.Basic
/-!
Truth is preserved by all histories of truthful calls, for atoms with complex values whose adjoint has the conjugate value.
-/
namespace Verif.SdpEnd
open Verif.Common Verif.Moment Verif.State Verif.SdpState

/-- The value of a moment. -/
noncomputable def cval (val : Atom → ℂ) (m : Mon) : ℂ := (m.map val).prod

theorem cval_perm (val : Atom → ℂ) {m m' : Mon} (h : m.Perm m') : cval val m = cval val m' := (h.map val).prod_eq

theorem prod_splitC (l : List Atom) (p : Atom → Bool) (val : Atom → ℂ) :
    (l.map val).prod = ((l.filter p).map val).prod * ((l.filter fun a => !p a).map val).prod := by
  induction l with
  | nil => simp
  | cons a l ih =>
    cases h : p a with
    | true => simp [h, ih, mul_assoc]
    | false => simp [h, ih, mul_left_comm]

/-- The returned value is the product of the known factors, and the moment is that times the remainder. -/
theorem evaluate_soundC (I : AtomInfo) (ms : List Atom) (known : Atom → Option Rat) (lpi : Bool) (val : Atom → ℂ) (h : ∀ f v, known f = some v → val f = ((v : Rat) : ℂ)) :
    (((evaluate (compound I ms) known lpi).1 : Rat) : ℂ) = cval val (ms.filter fun f => (known f).isSome) ∧
    cval val ms = (((evaluate (compound I ms) known lpi).1 : Rat) : ℂ) * cval val (evaluate (compound I ms) known lpi).2.1 := by
  obtain ⟨e1, e2⟩ := evaluate_eq I ms known lpi
  have h1 : (((evaluate (compound I ms) known lpi).1 : Rat) : ℂ) = cval val (ms.filter fun f => (known f).isSome) := by
    rw [e1]
    unfold cval
    have : ∀ l : List Atom, (∀ f ∈ l, (known f).isSome = true) → ((((l.map fun f => (known f).getD 0).prod : Rat)) : ℂ) = (l.map val).prod := by
      intro l
      induction l with
      | nil => intro _; simp
      | cons f l ih =>
        intro hl
        obtain ⟨v, hv⟩ := Option.isSome_iff_exists.1 (hl f (List.mem_cons_self ..))
        rw [List.map_cons, List.prod_cons, List.map_cons, List.prod_cons, Rat.cast_mul, ih fun g hg => hl g (List.mem_cons_of_mem _ hg), h f v hv, hv]
        rfl
    exact this _ fun f hf => (List.mem_filter.1 hf).2
  refine ⟨h1, ?_⟩
  rw [h1, cval_perm val e2]
  have := prod_splitC ms (fun f => (known f).isSome) val
  unfold cval
  rw [this]
  congr 3
  apply List.filter_congr
  intro f _
  cases known f <;> rfl

/-- Real parts agree for the two forms of a moment. -/
theorem cval_map_conj (val : Atom → ℂ) (d : Atom → Atom) (hd : ∀ a, val (d a) = (starRingEnd ℂ) (val a)) (m : List Atom) :
    cval val (m.map d) = (starRingEnd ℂ) (cval val m) := by
  induction m with
  | nil => simp [cval]
  | cons a m ih =>
    have : cval val ((a :: m).map d) = val (d a) * cval val (m.map d) := by simp [cval]
    rw [this, ih, hd]
    simp [cval]

theorem cval_monFromAtoms {K : Type} (E : SdpState.Env K) (val : Atom → ℂ) (hd : ∀ a, val (E.dagger a) = (starRingEnd ℂ) (val a)) (h1 : val [] = 1)
    (hz : ∀ a, E.info.zero a = true → val a = 0) (l : List Atom) :
    cval val (monFromAtoms E l) = cval val l ∨ cval val (monFromAtoms E l) = (starRingEnd ℂ) (cval val l) := by
  have hprod : ∀ l' : List Atom, cval val (sortBy atomLe l') = cval val l' := fun l' => cval_perm val (sortBy_perm atomLe l')
  have main : ∀ l' : List Atom, cval val (if tupleLe (sortBy atomLe l') (sortBy atomLe ((sortBy atomLe l').map E.dagger)) then sortBy atomLe l'
      else sortBy atomLe ((sortBy atomLe l').map E.dagger)) = cval val l' ∨ cval val (if tupleLe (sortBy atomLe l') (sortBy atomLe ((sortBy atomLe l').map E.dagger)) then sortBy atomLe l'
      else sortBy atomLe ((sortBy atomLe l').map E.dagger)) = (starRingEnd ℂ) (cval val l') := by
    intro l'
    split
    · exact .inl (hprod l')
    · right
      rw [hprod, cval_map_conj val _ hd, hprod]
  unfold monFromAtoms
  dsimp only
  rcases hf : l.find? E.info.zero with _ | z
  · simp only
    have : ∀ l : List Atom, cval val (l.filter fun a => !a.isEmpty) = cval val l := by
      intro l
      unfold cval
      induction l with
      | nil => rfl
      | cons a l ih =>
        by_cases ha : a.isEmpty = true
        · rw [List.filter_cons_of_neg (by simp [ha]), ih]
          have : a = [] := by simpa using ha
          simp [this, h1]
        · rw [List.filter_cons_of_pos (by simp [ha])]
          simp [ih]
    rw [← this l]
    exact main _
  · simp only
    have hz1 : E.info.zero z = true := List.find?_some hf
    have hz2 : z ∈ l := List.mem_of_find?_eq_some hf
    have : cval val l = cval val [z] := by
      have e1 : cval val [z] = 0 := by simp [cval, hz z hz1]
      rw [e1]
      exact List.prod_eq_zero (List.mem_map.2 ⟨z, hz2, hz z hz1⟩)
    rw [this]
    exact main [z]

theorem re_of_or {x y : ℂ} (h : x = y ∨ x = (starRingEnd ℂ) y) : x.re = y.re := by
  rcases h with rfl | rfl
  · rfl
  · exact Complex.conj_re _

theorem rat_conj (x : Rat) : (starRingEnd ℂ) ((x : Rat) : ℂ) = ((x : Rat) : ℂ) := by
  rw [Complex.conj_eq_iff_re]
  simp

/-- The atoms in `atomic_knowns`. -/
theorem atomicKnowns_some {K : Type} (E : SdpState.Env K) (known : Dict Mon Rat) (a : Atom) :
    ((SdpState.atomicKnowns E known).get a).isSome = true ↔ [a] ∈ known.keys ∨ ∃ b, [b] ∈ known.keys ∧ E.dagger b = a := by
  have fold : ∀ (l : List (Atom × Rat)) (d : Dict Atom Rat), ((l.foldl (fun d t => d.set (E.dagger t.1) t.2) d).get a).isSome = true ↔
      (d.get a).isSome = true ∨ ∃ t ∈ l, E.dagger t.1 = a := by
    intro l
    induction l with
    | nil => intro d; simp
    | cons t l ih =>
      intro d
      rw [List.foldl_cons, ih, get_set]
      constructor
      · rintro (h | ⟨u, hu, e⟩)
        · split at h
          · rename_i e; exact .inr ⟨t, by simp, e⟩
          · exact .inl h
        · exact .inr ⟨u, by simp [hu], e⟩
      · rintro (h | ⟨u, hu, e⟩)
        · left; split
          · rfl
          · exact h
        · rcases List.mem_cons.1 hu with rfl | hu
          · left; rw [if_pos e]; rfl
          · exact .inr ⟨u, hu, e⟩
  have mem : ∀ b : Atom, ([b] ∈ known.keys) ↔ ∃ t ∈ (known.filterMap fun t => match t.1 with | [a] => some (a, t.2) | _ => none : List (Atom × Rat)), t.1 = b := by
    intro b
    constructor
    · intro h
      obtain ⟨t, ht, e⟩ := List.mem_map.1 h
      refine ⟨(b, t.2), List.mem_filterMap.2 ⟨t, ht, ?_⟩, rfl⟩
      rw [e]
    · rintro ⟨t, ht, rfl⟩
      obtain ⟨u, hu, e⟩ := List.mem_filterMap.1 ht
      refine List.mem_map.2 ⟨u, hu, ?_⟩
      split at e
      · rename_i x hx
        have := Option.some.inj e
        rw [← this, hx]
      · simp at e
  unfold SdpState.atomicKnowns
  rw [fold, mem]
  refine or_congr ?_ ?_
  · rw [← Option.ne_none_iff_isSome, ne_eq, get_none, not_not]
    unfold State.Dict.keys
    rw [List.mem_map]
    exact Iff.rfl
  · constructor
    · rintro ⟨t, ht, e⟩
      exact ⟨t.1, (mem t.1).2 ⟨t, ht, rfl⟩, e⟩
    · rintro ⟨b, hb, e⟩
      obtain ⟨t, ht, rfl⟩ := (mem b).1 hb
      exact ⟨t, ht, e⟩

theorem atomicKnowns_ofC {K : Type} (E : SdpState.Env K) (known : Dict Mon Rat) (val : Atom → ℂ) (hd : ∀ a, val (E.dagger a) = (starRingEnd ℂ) (val a))
    (hk : ∀ a x, ([a], x) ∈ known → val a = ((x : Rat) : ℂ)) (a : Atom) (x : Rat) (h : (SdpState.atomicKnowns E known).get a = some x) : val a = ((x : Rat) : ℂ) := by
  unfold SdpState.atomicKnowns at h
  have hl : ∀ t ∈ (known.filterMap fun t => match t.1 with | [a] => some (a, t.2) | _ => none : Dict Atom Rat), val t.1 = ((t.2 : Rat) : ℂ) := by
    intro t ht
    obtain ⟨⟨m, v⟩, hu, h2⟩ := List.mem_filterMap.1 ht
    rcases m with _ | ⟨b, _ | ⟨c, m⟩⟩
    · simp at h2
    · simp only [Option.some.injEq] at h2
      subst h2
      exact hk b v hu
    · simp at h2
  generalize (known.filterMap fun t => match t.1 with | [a] => some (a, t.2) | _ => none : Dict Atom Rat) = l at h hl
  have get_mem : ∀ (d : Dict Atom Rat) a x, d.get a = some x → (a, x) ∈ d := by
    intro d a x hg
    induction d with
    | nil => simp at hg
    | cons t d ih =>
      obtain ⟨b, w⟩ := t
      rw [get_cons] at hg
      split at hg
      · rename_i e
        simp only [Option.some.injEq] at hg
        simp [e, hg]
      · exact List.mem_cons_of_mem _ (ih hg)
  have key : ∀ (l d : Dict Atom Rat), (∀ t ∈ l, val t.1 = ((t.2 : Rat) : ℂ)) → (∀ a x, d.get a = some x → val a = ((x : Rat) : ℂ)) →
      ∀ a x, (l.foldl (fun d t => d.set (E.dagger t.1) t.2) d).get a = some x → val a = ((x : Rat) : ℂ) := by
    intro l
    induction l with
    | nil => intro d _ h2 a x h3; exact h2 a x h3
    | cons t l ih =>
      intro d h1 h2 a x h3
      rw [List.foldl_cons] at h3
      refine ih _ (fun u hu => h1 u (by simp [hu])) ?_ a x h3
      intro b w hb
      rw [get_set] at hb
      split at hb
      · rename_i e
        simp only [Option.some.injEq] at hb
        rw [← e, hd, h1 t (by simp), ← hb, rat_conj]
      · exact h2 b w hb
  exact key l l hl (fun a x hg => hl (a, x) (get_mem l a x hg)) a x h

/-- Everything recorded about values is true. -/
structure ValuesHold (val : Atom → ℂ) (known : Dict Mon Rat) (semi : Dict Mon (Rat × Mon)) : Prop where
  known : ∀ m v, known.get m = some v → ValueTrue (cval val) m v
  semi : ∀ m c m2, semi.get m = some (c, m2) → (cval val m).re = ((c : Rat) : ℝ) * (cval val m2).re

theorem run_values (E : SdpState.Env Mon) (hsan : E.san = id) (hE : E.supports = false) (solver : SdpState.Args → SdpState.SolverOut) (val : Atom → ℂ)
    (hd : ∀ a, val (E.dagger a) = (starRingEnd ℂ) (val a)) (h1 : val [] = 1) (hz : ∀ a, E.info.zero a = true → val a = 0) (hzero : ∀ z, E.zero = some z → ∃ a, z = [a] ∧ val a = 0)
    (h : List (SdpState.Call Mon)) (hc : ∀ c ∈ h, CallTrue E (cval val) c) :
    ValuesHold val (SdpState.run E solver h).known (SdpState.run E solver h).semi := by
  refine values_induction E hE solver (ValuesHold val) (fun c => CallTrue E (cval val) c) ?_ ?_ ?_ h hc
  · intro k e e' hee' hv
    exact ⟨hv.known, fun m c m2 hm => hv.semi m c m2 (hee' m _ hm)⟩
  · refine ⟨?_, fun m c m2 hm => by simp at hm⟩
    intro m v hm
    have hmv : cval val m = ((v : Rat) : ℂ) := by
      rw [get_set] at hm
      split at hm
      · rename_i e
        simp only [Option.some.injEq] at hm
        subst e; subst hm
        simp [cval, SdpState.one]
      · rcases hzz : E.zero with _ | z
        · rw [hzz] at hm; simp at hm
        · rw [hzz] at hm
          simp only [Dict.set, get_cons] at hm
          split at hm
          · rename_i e
            obtain ⟨a, ha, ha0⟩ := hzero z hzz
            simp only [Option.some.injEq] at hm
            subst e; subst hm; subst ha
            simp [cval, ha0]
          · simp at hm
    exact ⟨by rw [hmv]; simp, fun _ => hmv⟩
  · intro s v lpi o hg _ hQ hs
    have hagree : (∀ t ∈ v, ∀ x, t.2 = some x → ValueTrue (cval val) t.1 x) ∧ (lpi = true → ∀ m ∈ E.moments, ∀ f : List Atom, (f.Sublist m ∨ f.Sublist (m.map E.dagger)) →
        (∀ a ∈ f, ((SdpState.atomicKnowns E (SdpState.assignValues E v s.known)).get a).isSome = true) → ∀ c : Rat, cval val f = ((c : Rat) : ℂ) → |c| ≤ 1 / 100000000 → c = 0) := by
      rcases hQ with ⟨hQ, hs0⟩ | hQ
      · refine ⟨hQ.1, fun hl m hm f hf hk c hc hc' => ?_⟩
        by_cases hz0 : ∃ a ∈ f, val a = 0
        · obtain ⟨a, ha, h0⟩ := hz0
          have : cval val f = 0 := List.prod_eq_zero (List.mem_map.2 ⟨a, ha, h0⟩)
          rw [this] at hc
          exact_mod_cast hc.symm
        · refine hQ.2 hl m hm f hf (fun a ha => ?_) c hc hc'
          have hne : val a ≠ 0 := fun h0 => hz0 ⟨a, ha, h0⟩
          have key : ∀ b : Atom, [b] ∈ (SdpState.assignValues E v s.known).keys → val b ≠ 0 → ∃ x, ([b], some x) ∈ v := by
            intro b hb hb0
            obtain ⟨x, hx⟩ := Option.ne_none_iff_exists'.1 (show Dict.get (SdpState.assignValues E v s.known) [b] ≠ none from fun h => (get_none (SdpState.assignValues E v s.known) [b]).1 h hb)
            rcases SdpState.assign_get_of E v s.known [b] x hx with ⟨t, ht, e1, e2⟩ | hx
            · rw [hsan] at e1
              exact ⟨x, by rw [← show t.1 = [b] from e1, ← e2]; exact ht⟩
            · exfalso
              rw [hs0, get_set, if_neg (by simp [SdpState.one])] at hx
              rcases hzz : E.zero with _ | z
              · rw [hzz] at hx; simp at hx
              · rw [hzz] at hx
                simp only [Dict.set, get_cons] at hx
                split at hx
                · rename_i e
                  obtain ⟨a0, ha0, ha1⟩ := hzero z hzz
                  rw [ha0] at e
                  simp only [List.cons.injEq, and_true] at e
                  exact hb0 (by rw [← e, ha1])
                · simp at hx
          rcases (atomicKnowns_some E _ a).1 (hk a ha) with h | ⟨b, hb, rfl⟩
          · obtain ⟨x, hx⟩ := key a h hne
            exact ⟨a, x, hx, .inl rfl⟩
          · have hb0 : val b ≠ 0 := fun h0 => hne (by rw [hd, h0, map_zero])
            obtain ⟨x, hx⟩ := key b hb hb0
            exact ⟨b, x, hx, .inr rfl⟩
      · exact ⟨hQ.1, fun hl m hm f hf _ => hQ.2 hl m hm f hf⟩
    have hk : ∀ m x, (SdpState.assignValues E v s.known).get m = some x → ValueTrue (cval val) m x := by
      intro m x hm
      rcases assign_get_of E v s.known m x hm with ⟨t, ht, e1, e2⟩ | hm
      · rw [hsan] at e1
        have := hagree.1 t ht x e2
        rwa [show t.1 = m from e1] at this
      · exact hs.known m x hm
    unfold preUpdate
    cases o with
    | true => exact ⟨hk, hs.semi⟩
    | false =>
      have hat : ∀ a x, (SdpState.atomicKnowns E (SdpState.assignValues E v s.known)).get a = some x → val a = ((x : Rat) : ℂ) := by
        intro a x ha
        refine atomicKnowns_ofC E _ val hd ?_ a x ha
        intro b w hb
        have := (hk [b] w ((get_of_mem _ (SdpState.assign_nodup E v _ hg.known) _ _).1 hb)).2 (by simp)
        simpa [cval] using this
      obtain ⟨l1, l2, _⟩ := SdpState.evalLoop_of E (SdpState.atomicKnowns E (SdpState.assignValues E v s.known)) lpi (SdpState.remainingMons E (SdpState.atomicKnowns E (SdpState.assignValues E v s.known)) lpi)
        ((SdpState.assignValues E v s.known).filter fun t => decide (t.1 ∈ E.moments), s.semi)
      have hcomp : ∀ m : Mon, ∃ m' : List Atom, compoundSDP E.info E.dagger m = compound E.info m' ∧ (cval val m').re = (cval val m).re ∧
          (m'.Perm m ∨ m'.Perm (m.map E.dagger)) := by
        intro m
        unfold compoundSDP
        dsimp only
        split
        · exact ⟨_, rfl, by rw [cval_perm val (sortBy_perm atomLe m)], .inl (sortBy_perm atomLe m)⟩
        · refine ⟨_, rfl, ?_, .inr (sortBy_perm atomLe _)⟩
          rw [cval_perm val (sortBy_perm atomLe (m.map E.dagger)), cval_map_conj val _ hd, Complex.conj_re]
      refine ⟨?_, ?_⟩
      · intro m x hm
        rcases l1 m x hm with hm | ⟨hmem, hst, hx⟩
        · rw [get_filter _ _ (SdpState.assign_nodup E v _ hg.known)] at hm
          exact hk m x hm.1
        · obtain ⟨hmm, hlen⟩ := SdpState.remaining_of E (SdpState.atomicKnowns E (SdpState.assignValues E v s.known)) lpi m hmem
          refine ⟨?_, fun hl => absurd hl (by omega)⟩
          obtain ⟨m', e1, e2, e3⟩ := hcomp m
          rw [e1] at hst hx
          set kn := (SdpState.atomicKnowns E (SdpState.assignValues E v s.known)).get with hkn
          obtain ⟨s1, s2⟩ := evaluate_soundC E.info m' kn lpi val (fun f x hf => hat f x hf)
          rw [← hx] at s1 s2
          rw [← e2]
          rcases (C25_status E.info m' kn lpi).1.1 hst with h4 | ⟨h4, _, h5⟩
          · rw [List.filter_eq_self.2 h4] at s1
            rw [← s1]; simp
          · have hx0 : x = 0 := by
              rcases e3 with e3 | e3
              · refine hagree.2 h4 m hmm _ (.inl (List.filter_sublist (p := fun f => (kn f).isSome))) (fun a ha => (List.mem_filter.1 ha).2) x ?_ (by rw [hx]; exact h5.2)
                rw [s1]
                exact (cval_perm val (e3.filter _)).symm
              · refine hagree.2 h4 m hmm _ (.inr (List.filter_sublist (p := fun f => (kn f).isSome))) (fun a ha => (List.mem_filter.1 ha).2) x ?_ (by rw [hx]; exact h5.2)
                rw [s1]
                exact (cval_perm val (e3.filter _)).symm
            rw [s2, hx0]; simp
      · intro m c m2 hm
        rcases l2 m (c, m2) hm with hm | ⟨hmem, hst, hx⟩
        · exact hs.semi m c m2 hm
        · obtain ⟨m', e1, e2, e3⟩ := hcomp m
          rw [e1] at hx
          simp only [Prod.mk.injEq] at hx
          obtain ⟨s1, s2⟩ := evaluate_soundC E.info m' (SdpState.atomicKnowns E (SdpState.assignValues E v s.known)).get lpi val (fun f x hf => hat f x hf)
          rw [← e2, s2, hx.2, re_of_or (cval_monFromAtoms E val hd h1 hz _), hx.1]
          rw [Complex.mul_re]
          simp

/-- After any history of truthful calls everything recorded is true. -/
structure Holds (val : Atom → ℂ) (s : SdpState.St) : Prop where
  values : ValuesHold val s.known s.semi
  lower : ∀ m x, s.lower.get m = some x → ((x : Rat) : ℝ) ≤ (cval val m).re ∧ (isClose0 x = true → x = 0)
  upper : ∀ m x, s.upper.get m = some x → (cval val m).re ≤ ((x : Rat) : ℝ) ∧ (isClose0 x = true → x = 0)

theorem run_holds (E : SdpState.Env Mon) (hsan : E.san = id) (hE : E.supports = false) (solver : SdpState.Args → SdpState.SolverOut) (val : Atom → ℂ)
    (hd : ∀ a, val (E.dagger a) = (starRingEnd ℂ) (val a)) (h1 : val [] = 1) (hz : ∀ a, E.info.zero a = true → val a = 0) (hzero : ∀ z, E.zero = some z → ∃ a, z = [a] ∧ val a = 0)
    (hherm : ∀ m ∈ E.hermitian, 0 ≤ (cval val m).re)
    (h : List (SdpState.Call Mon)) (hc : ∀ c ∈ h, CallTrue E (cval val) c) : Holds val (SdpState.run E solver h) := by
  have hb := run_bounds (PL := fun m x => ((x : Rat) : ℝ) ≤ (cval val m).re ∧ (isClose0 x = true → x = 0))
    (PU := fun m x => (cval val m).re ≤ ((x : Rat) : ℝ) ∧ (isClose0 x = true → x = 0)) E hE solver (fun m hm => ⟨by simpa using hherm m hm, fun _ => rfl⟩) h
    (by
      intro c hcm l hl t ht
      have := hc c hcm
      subst hl
      rw [hsan]
      exact this t ht)
    (by
      intro c hcm l hl t ht
      have := hc c hcm
      subst hl
      rw [hsan]
      exact this t ht)
  exact ⟨run_values E hsan hE solver val hd h1 hz hzero h hc, hb.lower, hb.upper⟩

end Verif.SdpEnd
