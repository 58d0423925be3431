import Verif.SdpEnd.Matrix
import Verif.SdpEnd.Truth
import Verif.SdpEnd.Solve
/-!
The values which `set_distribution` records are true of every model that realises the distribution.
-/
namespace Verif.SdpEnd
open Verif.Common Verif.Canon Verif.Canon.Spec Verif.Scenario Verif.Components Verif.Moment Verif.MomentMatrix Verif.SdpRepr Verif.SymMM Verif.Normalization
open Verif.State (Dict Mon)
open Verif.EndToEnd (Input)

variable {I : Input}

/-- If the letters of the word commute they are in increasing order. -/
def Nf (I : Input) (v : List Nat) : Prop := (∀ a ∈ v, ∀ b ∈ v, notcomm I a b = false) → v.Pairwise (· ≤ ·)

theorem nf_short {v : List Nat} (h : v.length ≤ 1) : Nf I v := by
  intro _
  match v, h with
  | [], _ => simp
  | [a], _ => simp

theorem removeSquares_sublist (w : List Nat) : (removeSquares w).Sublist w ∧ ∀ x ∈ w, x ∈ removeSquares w := by
  fun_induction removeSquares w with
  | case1 => simp
  | case2 => simp
  | case3 b t ih => exact ⟨ih.1.trans (List.sublist_cons_self _ _), fun x hx => ih.2 x (by simpa using hx)⟩
  | case4 a b t _ ih =>
    refine ⟨ih.1.cons_cons a, fun x hx => ?_⟩
    rcases List.mem_cons.1 hx with rfl | hx
    · simp
    · exact List.mem_cons_of_mem _ (ih.2 x hx)

theorem nf_canonical (flag : Bool) (w : List Nat) : Nf I (toCanonical (notcomm I) (orthomat I) (allCommute I) flag w) := by
  rw [canonC_eq (fun h => (allCommute_iff I).1 h)]
  by_cases hw : ∀ a ∈ w, ∀ b ∈ w, notcomm I a b = false
  · rw [← C05_commuting_shortcut_agrees _ _ _ _ hw]
    unfold toCanonical
    split
    · rename_i h; exact nf_short h
    · intro _
      have hs : (ascending w).Pairwise (· ≤ ·) := ascending_sorted w
      dsimp only
      simp only [if_true]
      split
      · exact hs
      · split
        · simp [removeSquares]
        · exact hs.sublist (removeSquares_sublist _).1
  · have hperm := (canon_sound (notcomm I) w).perm
    unfold toCanonical
    split
    · rename_i h; exact nf_short h
    · dsimp only
      simp only [Bool.false_eq_true, if_false]
      split
      · intro hv
        exact absurd (fun a ha b hb => hv a (hperm.mem_iff.1 ha) b (hperm.mem_iff.1 hb)) hw
      · split
        · exact nf_short (by simp [removeSquares])
        · intro hv
          exact absurd (fun a ha b hb => hv a ((removeSquares_sublist _).2 _ (hperm.mem_iff.1 ha)) b ((removeSquares_sublist _).2 _ (hperm.mem_iff.1 hb))) hw

/-- All entries of a dictionary are in increasing order if their letters commute. -/
def MemoNf (I : Input) (c : Memo) : Prop := ∀ k v, c.lookup k = some v → Nf I v

theorem nf_allZero {w : List Nat} (h : allZero w = true) : Nf I w := by
  intro _
  have : ∀ x ∈ w, x = 0 := by simpa [allZero] using h
  exact List.pairwise_of_forall_mem_list fun a ha b hb => by rw [this a ha, this b hb]

theorem canonMemo_nf {c : Memo} (hc : MemoNf I c) (flag : Bool) (w : List Nat) :
    MemoNf I (canonMemo (notcomm I) (orthomat I) (allCommute I) c flag w).1 ∧ Nf I (canonMemo (notcomm I) (orthomat I) (allCommute I) c flag w).2 := by
  unfold canonMemo
  split
  · rename_i r hr
    exact ⟨hc, hc w r hr⟩
  · split
    · rename_i h0
      refine ⟨?_, nf_allZero h0⟩
      intro k v hk
      rcases lookup_cons_some hk with ⟨rfl, rfl⟩ | hk
      · exact nf_allZero h0
      · exact hc k v hk
    · dsimp only
      refine ⟨?_, nf_canonical flag w⟩
      intro k v hk
      rcases lookup_cons_some hk with ⟨rfl, rfl⟩ | hk
      · exact nf_canonical flag w
      · rcases lookup_cons_some hk with ⟨rfl, rfl⟩ | hk
        · exact nf_canonical flag _
        · exact hc k v hk

theorem canonAll_nf (l : List (List Nat)) {c : Memo} (hc : MemoNf I c) :
    MemoNf I (canonAll (notcomm I) (orthomat I) (allCommute I) c l).1 ∧ ∀ v ∈ (canonAll (notcomm I) (orthomat I) (allCommute I) c l).2, Nf I v := by
  induction l generalizing c with
  | nil => exact ⟨hc, by simp [canonAll]⟩
  | cons v t ih =>
    obtain ⟨h1, h2⟩ := canonMemo_nf hc true v
    obtain ⟨h3, h4⟩ := ih h1
    refine ⟨h3, ?_⟩
    intro u hu
    rcases List.mem_cons.1 hu with rfl | hu
    · exact h2
    · exact h4 u hu

theorem nf_nil : Nf I [] := nf_short (by simp)

theorem minTuple_nf {l : List (List Nat)} (h : ∀ v ∈ l, Nf I v) : Nf I (minTuple l) := by
  by_cases hl : l = []
  · subst hl; exact nf_nil
  · exact h _ (minTuple_spec l hl).1

theorem reprMemo_nf {m : Mem} (h1 : MemoNf I m.canon) (h2 : MemoNf I m.sym) (flag : Bool) (w : List Nat) :
    (MemoNf I (reprMemo (notcomm I) (orthomat I) (allCommute I) (symmetries I) m flag w).1.canon ∧
      MemoNf I (reprMemo (notcomm I) (orthomat I) (allCommute I) (symmetries I) m flag w).1.sym) ∧
      Nf I (reprMemo (notcomm I) (orthomat I) (allCommute I) (symmetries I) m flag w).2 := by
  unfold reprMemo
  split
  · rename_i h0
    refine ⟨⟨h1, ?_⟩, nf_allZero h0⟩
    intro k v hk
    rcases lookup_cons_some hk with ⟨rfl, rfl⟩ | hk
    · exact nf_allZero h0
    · exact h2 k v hk
  · split
    · rename_i r hr
      exact ⟨⟨h1, h2⟩, h2 w r hr⟩
    · dsimp only
      obtain ⟨h3, h4⟩ := canonMemo_nf h1 flag w
      split
      · rename_i r hr
        refine ⟨⟨h3, ?_⟩, h2 _ r hr⟩
        intro k v hk
        rcases lookup_cons_some hk with ⟨rfl, rfl⟩ | hk
        · exact h2 _ _ hr
        · exact h2 k v hk
      · obtain ⟨h5, h6⟩ := canonAll_nf (variants (symmetries I) w) h3
        have hmin := minTuple_nf h6
        refine ⟨⟨h5, ?_⟩, hmin⟩
        intro k v hk
        rcases lookup_cons_some hk with ⟨rfl, rfl⟩ | hk
        · exact hmin
        · rcases lookup_append_map hk with ⟨_, rfl⟩ | hk'
          · exact hmin
          · exact h2 k v hk'

theorem reached_nf {m : Mem} (h : Reached I m) : MemoNf I m.canon ∧ MemoNf I m.sym := by
  obtain ⟨history, _, rfl⟩ := h
  unfold after
  have h0 : MemoNf I (⟨[], []⟩ : Mem).canon ∧ MemoNf I (⟨[], []⟩ : Mem).sym := ⟨by intro k v h; simp at h, by intro k v h; simp at h⟩
  generalize (⟨[], []⟩ : Mem) = m0 at h0
  induction history generalizing m0 with
  | nil => exact h0
  | cons c l ih =>
    rw [List.foldl_cons]
    apply ih (by rename_i hr; exact fun c hc => hr c (List.mem_cons_of_mem _ hc))
    cases c with
    | canon flag w => exact ⟨(canonMemo_nf h0.1 flag w).1, h0.2⟩
    | repr flag w => exact (reprMemo_nf h0.1 h0.2 flag w).1

theorem atomOf_nf {w : List Nat} {a : Atom} (h : AtomOf I w a) : Nf I a := by
  induction h with
  | direct h => exact (reprMemo_nf (reached_nf h).1 (reached_nf h).2 false _).2
  | stored _ _ ih => exact ih

/-- An atom of the program: a word of operators, in increasing order if they commute. -/
def GoodAtom (I : Input) (a : Atom) : Prop := InRange I a ∧ Nf I a

theorem goodAtom_zero : GoodAtom I [0] := ⟨by intro x hx; simp only [List.mem_cons, List.not_mem_nil, or_false] at hx; subst hx; exact nOps_pos I, nf_short (by simp)⟩

variable {R : Type} [Ring R] [StarRing R] [Algebra ℝ R] (M : InflatedModel I R)
include M

theorem atomOf_good {ch : Choice} (hch : ch.Computed I) {w : List Nat} (hw : InRange I w) : GoodAtom I (ch.atomOf w) :=
  ⟨(atomOf_sound M (hch.atomOf w hw) hw).1, atomOf_nf (hch.atomOf w hw)⟩

theorem dagger_good {ch : Choice} (hch : ch.Computed I) {a : Atom} (ha : GoodAtom I a) : GoodAtom I (ch.dagger a) := by
  obtain ⟨m, hm, e⟩ := hch.dagger a ha.1
  rw [e]
  unfold conjugate
  split
  · exact ha
  · exact ⟨((reprMemo_sound M (reached_sound M hm) true (inRange_reverse.2 ha.1)).2 (inRange_reverse.2 ha.1)).1, (reprMemo_nf (reached_nf hm).1 (reached_nf hm).2 true _).2⟩

theorem monFromAtoms_good {ch : Choice} (hch : ch.Computed I) {K : Type} (E : SdpState.Env K) (hE : E.dagger = ch.dagger) {l : List Atom} (hl : ∀ a ∈ l, GoodAtom I a) :
    ∀ a ∈ SdpState.monFromAtoms E l, GoodAtom I a := by
  have main : ∀ l' : List Atom, (∀ a ∈ l', GoodAtom I a) → ∀ a ∈ (if tupleLe (sortBy atomLe l') (sortBy atomLe ((sortBy atomLe l').map E.dagger)) then sortBy atomLe l'
      else sortBy atomLe ((sortBy atomLe l').map E.dagger)), GoodAtom I a := by
    intro l' hl' a ha
    split at ha
    · exact hl' a ((sortBy_perm atomLe l').mem_iff.1 ha)
    · obtain ⟨b, hb, rfl⟩ := List.mem_map.1 ((sortBy_perm atomLe _).mem_iff.1 ha)
      rw [hE]
      exact dagger_good M hch (hl' b ((sortBy_perm atomLe l').mem_iff.1 hb))
  unfold SdpState.monFromAtoms
  dsimp only
  rcases hf : l.find? E.info.zero with _ | z
  · exact main _ fun a ha => hl a (List.mem_filter.1 ha).1
  · refine main _ fun a ha => ?_
    simp only [List.mem_cons, List.not_mem_nil, or_false] at ha
    subst ha
    exact hl _ (List.mem_of_find?_eq_some hf)

theorem momentOf_good {ch : Choice} (hch : ch.Computed I) (name : Atom → String) {w : List Nat} (hw : InRange I w) (hcap : 0 ∉ w → EndToEnd.ClassicalModel.Capacity I.scenario (w.map (· - 1))) :
    ∀ a ∈ momentOf I ch name w, GoodAtom I a := by
  unfold momentOf
  split
  · intro a ha
    simp only [List.mem_cons, List.not_mem_nil, or_false] at ha
    subst ha
    exact goodAtom_zero
  · rename_i h0
    have h0' : 0 ∉ w := by simpa [List.contains_iff_mem] using h0
    obtain ⟨h1, _⟩ := value_factors M hw h0' (hcap h0')
    refine monFromAtoms_good M hch _ rfl ?_
    intro a ha
    obtain ⟨f, hf, rfl⟩ := List.mem_map.1 ha
    exact atomOf_good M hch (h1 _ (List.mem_map.2 ⟨f, hf, rfl⟩))

/-- All atoms of the program are words of operators in increasing order if they commute. -/
theorem moments_good {cols : List (List Nat)} {ch : Choice} {name : Atom → String} {B : Built} (hV : Setup I cols ch name B) :
    ∀ m ∈ B.env.moments, ∀ a ∈ m, GoodAtom I a := by
  obtain ⟨orbits, repr, c, eqs, h1, h2, h3, hmnd, _, _, henv⟩ := build_some hV.built
  obtain ⟨hnd, hc1, hc2⟩ := symmetrizedCorresp_get h2
  have hkeys : B.index.keys.Nodup := by rw [h3]; exact momentIndex_nodup ch name _ c
  intro m hm
  rw [henv] at hm
  obtain ⟨t, ht, rfl⟩ := List.mem_map.1 hm
  have hg := (State.get_of_mem _ hkeys t.1 t.2).1 ht
  rw [h3, momentIndex_get ch name _ c hnd] at hg
  rcases hcg : c.get t.1 with _ | w
  · rw [hcg] at hg
    dsimp only at hg
    split at hg
    · rw [← Option.some.inj hg]
      intro a ha
      simp only [List.mem_cons, List.not_mem_nil, or_false] at ha
      subst ha
      exact goodAtom_zero
    · simp at hg
  · rw [hcg] at hg
    rw [← Option.some.inj hg]
    obtain ⟨idx, _, hidx, _, hco⟩ := hc1 t.1 w hcg
    obtain ⟨i, j, m1, m2, ha, hb, _, hop⟩ := corresp_cell hV.columns hidx hco
    have q1 : InRange I m1 := hV.columns.lt _ (List.mem_of_getElem? ha)
    have q2 : InRange I m2 := hV.columns.lt _ (List.mem_of_getElem? hb)
    have hw : InRange I w := by
      rcases hop with hop | hop
      · exact (opEq_range (nOps_pos I) hop).2 (inRange_append.2 ⟨inRange_reverse.2 q1, q2⟩)
      · exact (opEq_range (nOps_pos I) hop).2 (inRange_append.2 ⟨inRange_reverse.2 q2, q1⟩)
    exact momentOf_good M hV.computed name hw fun h0 => capacity_word hV.copies hw h0

theorem atomic_good {cols : List (List Nat)} {ch : Choice} {name : Atom → String} {B : Built} (hV : Setup I cols ch name B) :
    ∀ m ∈ atomicMonomials B, ∀ a ∈ m, GoodAtom I a := by
  obtain ⟨_, _, _, _, _, _, _, _, _, _, henv⟩ := build_some hV.built
  intro m hm
  obtain ⟨b, hb, rfl⟩ := List.mem_map.1 hm
  refine monFromAtoms_good M hV.computed B.env (by rw [henv]) ?_
  intro a ha
  simp only [List.mem_cons, List.not_mem_nil, or_false] at ha
  subst ha
  have := (sortBy_perm atomLe _).mem_iff.1 hb
  rw [mem_dedupB] at this
  obtain ⟨m, hm, ham⟩ := List.mem_flatten.1 this
  exact moments_good M hV m hm _ ham

/-- The value which the code computes for a knowable atom is the value of the atom. -/
theorem knowable_value {P : List Nat → Rat} (hP : M.Realises P) {a : Atom} (ha : GoodAtom I a) (hk : knowable I a = true) :
    ∃ x, atomMarginal I P a = some x ∧ M.val a = ((x : Rat) : ℂ) := by
  by_cases h0 : isZero a = true
  · refine ⟨0, by unfold atomMarginal; rw [if_pos h0], ?_⟩
    rw [val_zero M h0]
    simp
  · by_cases he : a = []
    · subst he
      refine ⟨1, ?_, ?_⟩
      · unfold atomMarginal rectified
        simp [isZero, Marginal.computeMarginal]
      · rw [val_nil]; simp
    · have h0' : 0 ∉ a := by simpa [isZero, List.contains_iff_mem] using h0
      have hne : a.isEmpty = false := by simpa using he
      have hk' := hk
      unfold knowable at hk'
      simp only [hne, Bool.eq_false_iff.2 h0, Bool.or_self, Bool.false_or, Bool.and_eq_true, beq_iff_eq] at hk'
      obtain ⟨⟨hdc, hall⟩, hat⟩ := hk'
      have hc : ∀ x ∈ a, ∀ y ∈ a, notcomm I x y = false := by
        unfold allCommuting at hall
        rw [Bool.or_eq_true] at hall
        rcases hall with h | h
        · intro x _ y _; exact (allCommute_iff I).1 h x y
        · simp only [Bool.not_eq_true', List.any_eq_false, Bool.not_eq_true] at h
          exact fun x hx y hy => h x hx y hy
      have hs := ha.2 hc
      refine hP a ha.1 he h0' ?_ hk
      have hnd : a.Nodup := by
        have hval : ∀ op ∈ operators I a, Valid I.scenario op := by
          intro op hop
          unfold operators at hop
          obtain ⟨r, _, hr⟩ := List.mem_filterMap.1 hop
          split at hr
          · simp at hr
          · exact (mem_lexorder _).1 (List.mem_of_getElem? hr)
        have hnd := ((Knowable.C20_atomic_knowable_iff I.scenario I.isNetwork I.parents (fun p => I.priv.getD p 0) I.dims (fun _ => rfl) (fun _ _ => rfl)
          (operators I a) hval).2.1 hat).1
        have h1 : (operators I a).Nodup := hnd.of_map _
        have h2 : a.map (fun r => I.scenario.lexorder[r - 1]?) = (operators I a).map some := by
          have hin := ha.1
          clear hdc hP ha hk hne hall hat hc hs hval hnd h1 h0 he
          unfold operators
          induction a with
          | nil => rfl
          | cons r a ih =>
            have hr0 : r ≠ 0 := fun e => h0' (by simp [e])
            have hr := hin r (by simp)
            unfold nOps at hr
            have hr' : r - 1 < I.scenario.lexorder.length := by omega
            rw [List.map_cons, ih (fun h => h0' (List.mem_cons_of_mem _ h)) (fun x hx => hin x (List.mem_cons_of_mem _ hx)), List.filterMap_cons_some (b := I.scenario.lexorder[r - 1]),
              List.map_cons, List.getElem?_eq_getElem hr']
            rw [if_neg hr0, List.getElem?_eq_getElem hr']
        have h3 : (a.map (fun r => I.scenario.lexorder[r - 1]?)).Nodup := by rw [h2]; exact h1.map (Option.some_injective _)
        exact h3.of_map _
      exact (hs.and hnd).imp fun h => lt_of_le_of_ne h.1 h.2

/-- What `set_distribution` tells the program is true. -/
theorem setDistribution_true {cols : List (List Nat)} {ch : Choice} {name : Atom → String} {B : Built} (hV : Setup I cols ch name B) {P : List Nat → Rat} (hP : M.Realises P)
    (lpi shared : Bool) (hlpi : lpi = true → NotTiny I B P) : ∃ c, setDistribution I B P lpi shared = some c ∧ CallTrue B.env M.moment c := by
  have hm : ∀ m ∈ (atomicMonomials B).filter fun m => m.all (knowable I), ∃ v, momentMarginal I P m = some v ∧ ValueTrue M.moment m v := by
    intro m hm
    obtain ⟨h1, h2⟩ := List.mem_filter.1 hm
    have hg := atomic_good M hV m h1
    rw [List.all_eq_true] at h2
    have key : ∀ m : Mon, (∀ a ∈ m, GoodAtom I a) → (∀ a ∈ m, knowable I a = true) → ∃ vs, m.mapM (atomMarginal I P) = some vs ∧ M.moment m = ((vs.prod : Rat) : ℂ) := by
      intro m
      induction m with
      | nil => intro _ _; exact ⟨[], by simp, by simp [InflatedModel.moment]⟩
      | cons a m ih =>
        intro hg hk
        obtain ⟨vs, e1, e2⟩ := ih (fun b hb => hg b (List.mem_cons_of_mem _ hb)) (fun b hb => hk b (List.mem_cons_of_mem _ hb))
        obtain ⟨x, e3, e4⟩ := knowable_value M hP (hg a (by simp)) (hk a (by simp))
        refine ⟨x :: vs, by simp [e1, e3], ?_⟩
        have : M.moment (a :: m) = M.val a * M.moment m := by simp [InflatedModel.moment]
        rw [this, e2, e4, List.prod_cons]
        push_cast
        rfl
    obtain ⟨vs, e1, e2⟩ := key m hg h2
    refine ⟨vs.prod, by unfold momentMarginal; rw [e1]; rfl, ?_, fun _ => e2⟩
    rw [e2]
    exact Complex.ratCast_re _
  have hv : ∃ v, distributionValues I B P = some v ∧ ∀ t ∈ v, ∀ x, t.2 = some x → ValueTrue M.moment t.1 x := by
    unfold distributionValues
    generalize ((atomicMonomials B).filter fun m => m.all (knowable I)) = l at hm
    induction l with
    | nil => exact ⟨[], by simp, by simp⟩
    | cons m l ih =>
      obtain ⟨v, e1, e2⟩ := ih fun m hm' => hm m (List.mem_cons_of_mem _ hm')
      obtain ⟨x, e3, e4⟩ := hm m (by simp)
      refine ⟨(m, some x) :: v, by simp [e1, e3], ?_⟩
      intro t ht y hy
      rcases List.mem_cons.1 ht with rfl | ht
      · simp only [Option.some.injEq] at hy
        subst hy
        exact e4
      · exact e2 t ht y hy
  obtain ⟨v, e1, e2⟩ := hv
  refine ⟨.setValues v lpi shared, by unfold setDistribution; rw [e1]; rfl, e2, fun hl m hm f hf hk c hc hc' => ?_⟩
  have hv1 : ∀ b x, ([b], some x) ∈ v → [b] ∈ atomicMonomials B ∧ knowable I b = true ∧ atomMarginal I P b = some x ∧ M.val b = ((x : Rat) : ℂ) := by
    intro b x hb
    unfold distributionValues at e1
    have hf := List.forall₂_iff_get.1 (Verif.LpSolver.mapM_forall₂ e1)
    obtain ⟨i, hi, e⟩ := List.getElem_of_mem hb
    obtain ⟨w, h5, e'⟩ := Option.map_eq_some_iff.1 (hf.2 i (by rw [hf.1]; exact hi) hi)
    have e' : _ = v[i] := e'
    rw [e] at e'
    simp only [Prod.mk.injEq, Option.some.injEq] at e'
    obtain ⟨e3, e4⟩ := e'
    have hmem := List.get_mem ((atomicMonomials B).filter fun m => m.all (knowable I)) ⟨i, by rw [hf.1]; exact hi⟩
    rw [e3] at h5 hmem
    have h6 := (List.mem_filter.1 hmem).2
    simp only [List.all_cons, List.all_nil, Bool.and_true] at h6
    obtain ⟨y, h7, h8⟩ := knowable_value M hP (atomic_good M hV [b] (List.mem_filter.1 hmem).1 b (by simp)) h6
    have : w = y := by
      unfold momentMarginal at h5
      simp only [List.mapM_cons, List.mapM_nil, h7] at h5
      simpa using h5.symm
    rw [← e4, this]
    exact ⟨(List.mem_filter.1 hmem).1, h6, h7, h8⟩
  have hps : ∃ ps : List Rat, List.Forall₂ (fun a p => ∃ b, [b] ∈ atomicMonomials B ∧ knowable I b = true ∧ (a = b ∨ a = B.env.dagger b) ∧ atomMarginal I P b = some p) f ps ∧ M.moment f = ((ps.prod : Rat) : ℂ) := by
    clear hf hc
    induction f with
    | nil => exact ⟨[], .nil, by simp [InflatedModel.moment]⟩
    | cons a f ih =>
      obtain ⟨ps, h1, h2⟩ := ih fun a ha => hk a (List.mem_cons_of_mem _ ha)
      obtain ⟨b, x, hb, hab⟩ := hk a (by simp)
      obtain ⟨h0, h3, h4, h5⟩ := hv1 b x hb
      refine ⟨x :: ps, .cons ⟨b, h0, h3, hab, h4⟩ h1, ?_⟩
      have : M.moment (a :: f) = M.val a * M.moment f := by simp [InflatedModel.moment]
      rw [this, h2, List.prod_cons]
      rcases hab with rfl | rfl
      · rw [h5]; push_cast; rfl
      · have henv : B.env.dagger = ch.dagger := by obtain ⟨_, _, _, _, _, _, _, _, _, _, henv⟩ := build_some hV.built; rw [henv]
        rw [henv, dagger_value M hV.computed, h5, rat_conj]; push_cast; rfl
  obtain ⟨ps, h1, h2⟩ := hps
  have hcp : c = ps.prod := by
    rw [h2] at hc
    exact_mod_cast hc.symm
  rw [hcp] at hc' ⊢
  exact hlpi hl m hm f hf ps h1 hc'

end Verif.SdpEnd
