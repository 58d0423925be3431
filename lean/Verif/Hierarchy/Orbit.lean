import Verif.Generate.Orbit
import Verif.Sanitise.Relabel
import Verif.Linear.Involution
/-!
Two words that cannot be simplified and are related by a relabelling of the copies, one of them possibly reversed, have the same moment.
-/
namespace Verif.Hierarchy
open Verif.Common Verif.Canon Verif.Canon.Spec Verif.Scenario Verif.Components Verif.Moment Verif.MomentMatrix Verif.SymMM Verif.SdpRepr Verif.SdpEnd Verif.SdpNames Verif.Symmetry Verif.Generate
open Verif.Orbits (boolKey image)
open Verif.Sanitise (factor_keys image_boolKey)
open Verif.State (Dict Mon)
open Verif.EndToEnd (Input)

variable {I : Input}

/-! ### The letters of a factor, in the order of the word -/

theorem factor_filter {fs : List (List Nat)} {w : List Nat} (hp : fs.flatten.Perm w) (hs : ∀ f ∈ fs, f.Sublist w) (hd : fs.Pairwise List.Disjoint) :
    ∀ f ∈ fs, w.filter (fun a => decide (a ∈ f)) = f := by
  intro f hf
  have hff : (f.filter fun a => decide (a ∈ f)) = f := by rw [List.filter_eq_self]; intro a ha; simpa using ha
  have hsub : f.Sublist (w.filter fun a => decide (a ∈ f)) := by
    have := (hs f hf).filter fun a => decide (a ∈ f)
    rwa [hff] at this
  refine (hsub.eq_of_length ?_).symm
  rw [← (hp.filter fun a => decide (a ∈ f)).length_eq]
  clear hsub hp hs
  induction fs with
  | nil => cases hf
  | cons g fs ih =>
    rw [List.pairwise_cons] at hd
    rw [List.flatten_cons, List.filter_append, List.length_append]
    rcases List.mem_cons.1 hf with rfl | hf'
    · have : (fs.flatten.filter fun a => decide (a ∈ f)) = [] := by
        rw [List.filter_eq_nil_iff]
        intro a ha
        obtain ⟨g, hg, hag⟩ := List.mem_flatten.1 ha
        simpa using fun haf => hd.1 g hg haf hag
      rw [this, hff]; simp
    · have : (g.filter fun a => decide (a ∈ f)) = [] := by
        rw [List.filter_eq_nil_iff]
        intro a ha
        simpa using fun haf => hd.1 f hf' ha haf
      rw [this, ih hd.2 hf']; simp

theorem commEq_keep {nc : BMat} (p : Nat → Bool) {u v : List Nat} (h : CommEq (fun a b => nc a b = false) u v) : CommEq (fun a b => nc a b = false) (u.filter p) (v.filter p) := by
  induction h with
  | refl _ => exact .refl _
  | symm _ ih => exact ih.symm
  | trans _ _ h1 h2 => exact h1.trans h2
  | swap x a b y hc =>
    simp only [List.filter_append, List.filter_cons]
    split <;> split
    · exact .swap _ _ _ _ hc
    all_goals exact .refl _

/-- The lowered letters of a word. -/
theorem lowered_lt {w : List Nat} (hw : InRange I w) (h0 : 0 ∉ w) : ∀ a ∈ w.map (· - 1), a < I.scenario.lexorder.length := by
  intro a ha
  obtain ⟨b, hb, rfl⟩ := List.mem_map.1 ha
  have := hw b hb
  have h1 : b ≠ 0 := fun e => h0 (e ▸ hb)
  unfold nOps at this
  omega

theorem raise_lower {w : List Nat} (h0 : 0 ∉ w) : (w.map (· - 1)).map (· + 1) = w := by
  rw [List.map_map]
  conv_rhs => rw [← List.map_id w]
  apply List.map_congr_left
  intro a ha
  have : a ≠ 0 := fun e => h0 (e ▸ ha)
  simp only [Function.comp_apply, id]
  omega

theorem mem_lower {w : List Nat} (h0 : 0 ∉ w) {i : Nat} : i ∈ w.map (· - 1) ↔ i + 1 ∈ w := by
  rw [List.mem_map]
  constructor
  · rintro ⟨a, ha, rfl⟩
    have : a ≠ 0 := fun e => h0 (e ▸ ha)
    rwa [Nat.sub_add_cancel (by omega)]
  · intro h
    exact ⟨_, h, by omega⟩

theorem factorsOf_map (hS : copiesOf I.scenario ≤ 254) {w : List Nat} (hw : InRange I w) (h0 : 0 ∉ w) (hne : w ≠ []) :
    factorsOf I w = (factorize I.scenario (w.map (· - 1))).map fun f => f.map (· + 1) := by
  obtain ⟨h1, h2, h3, _⟩ := C09_factorization I.scenario (w.map (· - 1)) (by simpa using hne) (lowered_lt hw h0) (capacity_word hS hw h0)
  unfold factorsOf
  congr 1
  rw [List.filter_eq_self]
  intro f hf
  have := (h2 f hf).1
  simpa using this

theorem factorsOf_filter (hS : copiesOf I.scenario ≤ 254) {w : List Nat} (hw : InRange I w) (h0 : 0 ∉ w) : ∀ f ∈ factorsOf I w, w.filter (fun a => decide (a ∈ f)) = f := by
  intro f hf
  by_cases hne : w = []
  · subst hne
    have : factorize I.scenario [] = [[]] := by simp [factorize]
    simp [factorsOf, this] at hf
  rw [factorsOf_map hS hw h0 hne] at hf
  obtain ⟨g, hg, rfl⟩ := List.mem_map.1 hf
  obtain ⟨h1, h2, h3, _⟩ := C09_factorization I.scenario (w.map (· - 1)) (by simpa using hne) (lowered_lt hw h0) (capacity_word hS hw h0)
  have this := congrArg (List.map (· + 1)) (factor_filter h1 (fun f hf => (h2 f hf).2) h3 g hg)
  refine Eq.trans ?_ this
  conv_lhs => rw [← raise_lower h0]
  rw [List.filter_map]
  congr 1
  apply List.filter_congr
  intro a _
  have : a + 1 ∈ g.map (· + 1) ↔ a ∈ g := by simp
  simp only [Function.comp_apply]
  exact decide_eq_decide.2 this

/-- The factors of a word whose letters are the relabelled letters of another one. -/
theorem factors_relabelled (hS : copiesOf I.scenario ≤ 254) {r : List Nat} (hr : r ∈ lexorderSymmetries I.scenario) {w v : List Nat} (hw : InRange I w) (hw0 : 0 ∉ w) (hv : InRange I v) (hv0 : 0 ∉ v)
    (hm : ∀ x, x < nOps I → x ≠ 0 → (x ∈ w ↔ (padRow r).getD x x ∈ v)) (hwn : w ≠ []) (hvn : v ≠ []) :
    ∃ gs, gs.Perm (factorsOf I v) ∧ List.Forall₂ (fun f g => ∀ x, x < nOps I → x ≠ 0 → (x ∈ f ↔ (padRow r).getD x x ∈ g)) (factorsOf I w) gs := by
  have hp := (Verif.Orbits.symmetries_isGroup I.scenario).perm r hr
  have hm' : ∀ i < I.scenario.lexorder.length, i ∈ w.map (· - 1) ↔ r.getD i 0 ∈ v.map (· - 1) := by
    intro i hi
    have h1 := hm (i + 1) (by unfold nOps; omega) (by omega)
    rw [padRow_get hr (by unfold nOps; omega) (by omega), Nat.add_sub_cancel] at h1
    rw [mem_lower hw0, mem_lower hv0, h1]
  have hk := factor_keys hr hS (lowered_lt hv hv0) (lowered_lt hw hw0) (by simpa using hvn) (by simpa using hwn) hm'
  have hF : List.Forall₂ (fun (k : List Bool) (g : List Nat) => k = image (boolKey I.scenario.lexorder.length g) r)
      ((factorize I.scenario (v.map (· - 1))).map fun f => image (boolKey I.scenario.lexorder.length f) r) (factorize I.scenario (v.map (· - 1))) := by
    rw [List.forall₂_map_left_iff]
    exact List.forall₂_same.2 fun _ _ => rfl
  obtain ⟨z, hz, hzp⟩ := List.perm_comp_forall₂ hk.symm hF
  refine ⟨z.map fun f => f.map (· + 1), ?_, ?_⟩
  · rw [factorsOf_map hS hv hv0 hvn]
    exact hzp.map _
  · rw [factorsOf_map hS hw hw0 hwn, List.forall₂_map_left_iff, List.forall₂_map_right_iff]
    rw [List.forall₂_map_left_iff] at hz
    refine hz.imp ?_
    intro f g e x hx hx0
    have h1 := (image_boolKey hp).1 e.symm (x - 1) (by unfold nOps at hx; omega)
    rw [padRow_get hr hx hx0]
    have h2 : x ∈ f.map (· + 1) ↔ x - 1 ∈ f := by
      rw [List.mem_map]
      constructor
      · rintro ⟨a, ha, rfl⟩; simpa using ha
      · intro h; exact ⟨_, h, by omega⟩
    have h3 : r.getD (x - 1) 0 + 1 ∈ g.map (· + 1) ↔ r.getD (x - 1) 0 ∈ g := by simp
    rw [h2, h3]
    exact h1

/-! ### Atoms -/

theorem factor_atoms {ch : Choice} (hch : UsualChoice ch I) (hS : copiesOf I.scenario ≤ 254) {w : List Nat} (hw : InRange I w) (h0 : 0 ∉ w)
    (hr : Reduced (notcomm I) (orthomat I) w) : ∀ f ∈ factorsOf I w, InRange I f ∧ IsLeast (notcomm I) (symmetries I) f (ch.atomOf f) ∧ Plain I (ch.atomOf f) := by
  have hfac := factors_reduced hw h0 (capacity_word hS hw h0) hr
  intro f hf
  obtain ⟨q1, q2, q3, q4⟩ := hfac f hf
  have hl := usualAtom_least (hch.atomOf _ q1 q4) q1 q4
  refine ⟨q1, hl, representative_of_least q1 q4 hl, ?_, ?_⟩
  · intro e
    have := sameOrbit_length hl.1
    rw [e] at this
    exact q2 (List.eq_nil_of_length_eq_zero this)
  · obtain ⟨r, hr', e⟩ := hl.1
    intro hz
    obtain ⟨x, hx, hx0⟩ := List.mem_map.1 (e.perm.mem_iff.2 hz)
    obtain ⟨r', hr'', rfl⟩ := List.mem_map.1 hr'
    have hx' : x ≠ 0 := fun h => q3 (h ▸ hx)
    rw [padRow_get hr'' (q1 x hx) hx'] at hx0
    omega

/-- The adjoint of a representative is the first word of the orbit of the reversed word. -/
theorem dagger_least {ch : Choice} (hch : UsualChoice ch I) {a : Atom} (h : Representative I a) : IsLeast (notcomm I) (symmetries I) a.reverse (ch.dagger a) := by
  have ho := dagger_orbit hch h
  have hd := dagger_representative hch h
  exact isLeast_congr (symData I) hd.range (sameOrbit_symm (symData I) (inRange_reverse.2 h.range) ho) hd.least

/-- The moment of a word without the zero operator in terms of its atoms. -/
theorem momentOf_eq {ch : Choice} (hch : UsualChoice ch I) (name : Atom → String) (hS : copiesOf I.scenario ≤ 254) {w : List Nat} (hw : InRange I w) (h0 : 0 ∉ w)
    (hr : Reduced (notcomm I) (orthomat I) w) :
    momentOf I ch name w = if tupleLe (sortBy atomLe ((factorsOf I w).map ch.atomOf)) (sortBy atomLe ((sortBy atomLe ((factorsOf I w).map ch.atomOf)).map ch.dagger))
      then sortBy atomLe ((factorsOf I w).map ch.atomOf) else sortBy atomLe ((sortBy atomLe ((factorsOf I w).map ch.atomOf)).map ch.dagger) := by
  have hplain : ∀ a ∈ (factorsOf I w).map ch.atomOf, Plain I a := by
    intro a ha
    obtain ⟨f, hf, rfl⟩ := List.mem_map.1 ha
    exact (factor_atoms hch hS hw h0 hr f hf).2.2
  have hm : momentOf I ch name w = SdpState.monFromAtoms (protoEnv I ch name) ((factorsOf I w).map ch.atomOf) := by
    unfold momentOf factorsOf
    rw [if_neg (by simpa [List.contains_iff_mem] using h0), List.map_map]
    rfl
  rw [hm]
  have hnone : ((factorsOf I w).map ch.atomOf).find? (protoEnv I ch name).info.zero = none := by
    rw [List.find?_eq_none]
    intro a ha
    have := (hplain a ha).nonzero
    simpa [protoEnv, atomInfo, isZero] using this
  have hfil : (((factorsOf I w).map ch.atomOf).filter fun a => !a.isEmpty) = (factorsOf I w).map ch.atomOf := by
    rw [List.filter_eq_self]
    intro a ha
    simpa using (hplain a ha).ne
  unfold SdpState.monFromAtoms
  dsimp only
  rw [hnone]
  dsimp only
  rw [hfil]
  rfl

theorem sort_perm {l l' : List Atom} (h : l.Perm l') : sortBy atomLe l = sortBy atomLe l' := sortBy_eq_of_perm atomLe atomLe_total atomLe_trans atomLe_antisymm h

/-- Words with the same atoms. -/
theorem moment_of_atoms {ch : Choice} (hch : UsualChoice ch I) (name : Atom → String) (hS : copiesOf I.scenario ≤ 254) {w v : List Nat} (hw : InRange I w) (hw0 : 0 ∉ w)
    (hwr : Reduced (notcomm I) (orthomat I) w) (hv : InRange I v) (hv0 : 0 ∉ v) (hvr : Reduced (notcomm I) (orthomat I) v) (h : ((factorsOf I w).map ch.atomOf).Perm ((factorsOf I v).map ch.atomOf)) :
    momentOf I ch name w = momentOf I ch name v := by
  rw [momentOf_eq hch name hS hw hw0 hwr, momentOf_eq hch name hS hv hv0 hvr, sort_perm h]

/-- Words with adjoint atoms. -/
theorem moment_of_daggers {ch : Choice} (hch : UsualChoice ch I) (name : Atom → String) (hS : copiesOf I.scenario ≤ 254) {w v : List Nat} (hw : InRange I w) (hw0 : 0 ∉ w)
    (hwr : Reduced (notcomm I) (orthomat I) w) (hv : InRange I v) (hv0 : 0 ∉ v) (hvr : Reduced (notcomm I) (orthomat I) v)
    (h : ((factorsOf I w).map ch.atomOf).Perm ((factorsOf I v).map fun f => ch.dagger (ch.atomOf f))) : momentOf I ch name w = momentOf I ch name v := by
  have hrep : ∀ f ∈ factorsOf I v, Representative I (ch.atomOf f) := fun f hf => (factor_atoms hch hS hv hv0 hvr f hf).2.2.repr
  rw [momentOf_eq hch name hS hw hw0 hwr, momentOf_eq hch name hS hv hv0 hvr]
  have e1 : sortBy atomLe ((factorsOf I w).map ch.atomOf) = sortBy atomLe ((sortBy atomLe ((factorsOf I v).map ch.atomOf)).map ch.dagger) := by
    apply sort_perm
    refine h.trans ?_
    have := (sortBy_perm atomLe ((factorsOf I v).map ch.atomOf)).symm.map ch.dagger
    simpa [List.map_map, Function.comp_def] using this
  have e2 : sortBy atomLe ((sortBy atomLe ((factorsOf I w).map ch.atomOf)).map ch.dagger) = sortBy atomLe ((factorsOf I v).map ch.atomOf) := by
    apply sort_perm
    refine ((sortBy_perm atomLe ((factorsOf I w).map ch.atomOf)).map ch.dagger).trans ((h.map ch.dagger).trans ?_)
    rw [List.map_map]
    refine List.Perm.of_eq (List.map_congr_left fun f hf => ?_)
    exact Linear.dagger_dagger hch (hrep f hf)
  rw [e2, e1]
  exact min_swap _ _

/-- **Words related by a relabelling of the copies have the same moment.** -/
theorem moment_of_orbit {ch : Choice} (hch : UsualChoice ch I) (name : Atom → String) (hS : copiesOf I.scenario ≤ 254) {w v : List Nat} (hw : InRange I w) (hw0 : 0 ∉ w)
    (hwr : Reduced (notcomm I) (orthomat I) w) (hv : InRange I v) (hv0 : 0 ∉ v) (hvr : Reduced (notcomm I) (orthomat I) v) (h : SdpRepr.SameOrbit (notcomm I) (symmetries I) w v) :
    momentOf I ch name w = momentOf I ch name v := by
  by_cases hwn : w = []
  · subst hwn
    have := sameOrbit_length h
    rw [List.eq_nil_of_length_eq_zero this.symm]
  have hvn : v ≠ [] := fun e => hwn (List.eq_nil_of_length_eq_zero (by rw [sameOrbit_length h, e]; rfl))
  refine moment_of_atoms hch name hS hw hw0 hwr hv hv0 hvr ?_
  obtain ⟨r', hr', e⟩ := h
  obtain ⟨r, hr, rfl⟩ := List.mem_map.1 hr'
  have hp := (Verif.Orbits.symmetries_isGroup I.scenario).perm r hr
  have inj : ∀ x, x < nOps I → x ≠ 0 → ∀ y, y < nOps I → y ≠ 0 → (padRow r).getD x x = (padRow r).getD y y → x = y := by
    intro x hx hx0 y hy hy0 e
    rw [padRow_get hr hx hx0, padRow_get hr hy hy0] at e
    have hl : r.length = I.scenario.lexorder.length := by simpa using hp.length_eq
    unfold nOps at hx hy
    rw [List.getD_eq_getElem _ _ (by omega), List.getD_eq_getElem _ _ (by omega)] at e
    have := (hp.nodup_iff.2 List.nodup_range).getElem_inj_iff.1 (Nat.succ.inj e)
    omega
  have hm : ∀ x, x < nOps I → x ≠ 0 → (x ∈ w ↔ (padRow r).getD x x ∈ v) := by
    intro x hx hx0
    rw [← e.perm.mem_iff]
    constructor
    · intro h; exact List.mem_map.2 ⟨x, h, rfl⟩
    · intro h
      obtain ⟨y, hy, e⟩ := List.mem_map.1 h
      have := inj y (hw y hy) (fun h => hw0 (h ▸ hy)) x hx hx0 e
      exact this ▸ hy
  obtain ⟨gs, hgp, hF⟩ := factors_relabelled hS hr hw hw0 hv hv0 hm hwn hvn
  refine List.Perm.trans ?_ (hgp.map ch.atomOf)
  refine List.Perm.of_eq ?_
  have hfw := fun f hf => And.intro (factor_atoms hch hS hw hw0 hwr f hf) (factorsOf_filter hS hw hw0 f hf)
  have hfv : ∀ g ∈ gs, _ := fun g hg => And.intro (factor_atoms hch hS hv hv0 hvr g (hgp.mem_iff.1 hg)) (factorsOf_filter hS hv hv0 g (hgp.mem_iff.1 hg))
  clear hgp
  generalize factorsOf I w = fs at hfw hF
  induction hF with
  | nil => rfl
  | @cons f g fs gs h _ ih =>
    rw [List.map_cons, List.map_cons, ih (fun g hg => hfv g (List.mem_cons_of_mem _ hg)) (fun f hf => hfw f (List.mem_cons_of_mem _ hf))]
    congr 1
    obtain ⟨⟨f1, f2, f3⟩, f4⟩ := hfw f (by simp)
    obtain ⟨⟨g1, g2, g3⟩, g4⟩ := hfv g (by simp)
    have ho : SdpRepr.SameOrbit (notcomm I) (symmetries I) f g := by
      refine ⟨padRow r, hr', ?_⟩
      have := commEq_keep (fun a => decide (a ∈ g)) e
      rw [g4, List.filter_map] at this
      have e3 : w.filter ((fun a => decide (a ∈ g)) ∘ fun x => (padRow r).getD x x) = f := by
        rw [← f4]
        apply List.filter_congr
        intro a ha
        have := h a (hw a ha) (fun e => hw0 (e ▸ ha))
        simp only [Function.comp_apply, f4]
        exact decide_eq_decide.2 this.symm
      rwa [e3] at this
    exact isLeast_unique (isLeast_congr (symData I) f1 ho f2) g2

theorem getD_id {n x : Nat} (hx : x < n) : (List.range n).getD x x = x := by
  rw [List.getD_eq_getElem _ _ (by simpa using hx), List.getElem_range]

/-- **A word and its reverse have the same moment.** -/
theorem moment_reverse {ch : Choice} (hch : UsualChoice ch I) (name : Atom → String) (hS : copiesOf I.scenario ≤ 254) {v : List Nat}
    (hv : InRange I v) (hv0 : 0 ∉ v) (hvr : Reduced (notcomm I) (orthomat I) v) : momentOf I ch name v.reverse = momentOf I ch name v := by
  by_cases hvn : v = []
  · subst hvn; rfl
  have hw : InRange I v.reverse := inRange_reverse.2 hv
  have hw0 : 0 ∉ v.reverse := by simpa using hv0
  have hwr := Positivity.reduced_reverse (operatorList I).nc_symm hvr
  refine moment_of_daggers hch name hS hw hw0 hwr hv hv0 hvr ?_
  have hr := (Verif.Orbits.symmetries_isGroup I.scenario).id_mem
  obtain ⟨gs, hgp, hF⟩ := factors_relabelled hS hr hw hw0 hv hv0 (by
    intro x hx hx0
    rw [padRow_get hr hx hx0]
    unfold nOps at hx
    rw [List.getD_eq_getElem _ _ (by simp; omega), List.getElem_range, Nat.sub_add_cancel (by omega), List.mem_reverse]) (by simpa using hvn) hvn
  refine List.Perm.trans ?_ (hgp.map _)
  refine List.Perm.of_eq ?_
  have hfw := fun f hf => And.intro (factor_atoms hch hS hw hw0 hwr f hf) (factorsOf_filter hS hw hw0 f hf)
  have hfv : ∀ g ∈ gs, _ := fun g hg => And.intro (factor_atoms hch hS hv hv0 hvr g (hgp.mem_iff.1 hg)) (factorsOf_filter hS hv hv0 g (hgp.mem_iff.1 hg))
  clear hgp
  generalize factorsOf I v.reverse = fs at hfw hF
  induction hF with
  | nil => rfl
  | @cons f g fs gs h _ ih =>
    rw [List.map_cons, List.map_cons, ih (fun g hg => hfv g (List.mem_cons_of_mem _ hg)) (fun f hf => hfw f (List.mem_cons_of_mem _ hf))]
    congr 1
    obtain ⟨⟨f1, f2, f3⟩, f4⟩ := hfw f (by simp)
    obtain ⟨⟨g1, g2, g3⟩, g4⟩ := hfv g (by simp)
    have e3 : f = g.reverse := by
      rw [← f4, ← g4, List.filter_reverse]
      congr 1
      apply List.filter_congr
      intro a ha
      have := h a (hv a ha) (fun e => hv0 (e ▸ ha))
      have hx := hv a ha
      have hx0 : a ≠ 0 := fun e => hv0 (e ▸ ha)
      rw [padRow_get hr hx hx0] at this
      unfold nOps at hx
      rw [List.getD_eq_getElem _ _ (by simp; omega), List.getElem_range, Nat.sub_add_cancel (by omega)] at this
      exact decide_eq_decide.2 this
    subst e3
    have h1 := orbit_reverse g2.1
    have h2 := isLeast_congr (symData I) (inRange_reverse.2 g3.repr.range) (sameOrbit_symm (symData I) f1 h1) (dagger_least hch g3.repr)
    exact isLeast_unique f2 h2

/-- **Exactly the words related by a relabelling of the copies, or by a relabelling and reversal, have the same moment.** -/
theorem moment_iff {ch : Choice} (hch : UsualChoice ch I) (name : Atom → String) (hS : copiesOf I.scenario ≤ 254) {w v : List Nat} (hw : InRange I w) (hw0 : 0 ∉ w)
    (hwr : Reduced (notcomm I) (orthomat I) w) (hv : InRange I v) (hv0 : 0 ∉ v) (hvr : Reduced (notcomm I) (orthomat I) v) :
    momentOf I ch name w = momentOf I ch name v ↔ SdpRepr.SameOrbit (notcomm I) (symmetries I) w v ∨ SdpRepr.SameOrbit (notcomm I) (symmetries I) w v.reverse := by
  refine ⟨orbit_of_moment hch name hS hw hw0 hwr hv hv0 hvr, ?_⟩
  rintro (h | h)
  · exact moment_of_orbit hch name hS hw hw0 hwr hv hv0 hvr h
  · rw [moment_of_orbit hch name hS hw hw0 hwr (inRange_reverse.2 hv) (by simpa using hv0) (Positivity.reduced_reverse (operatorList I).nc_symm hvr) h, moment_reverse hch name hS hv hv0 hvr]

end Verif.Hierarchy
