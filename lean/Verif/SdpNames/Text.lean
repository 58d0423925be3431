import Verif.SdpNames.Words
import Verif.Sanitise.Text
import Verif.Sanitise.Read
/-!
Different representatives have different names.
-/
namespace Verif.SdpNames
open Verif.Common Verif.Canon Verif.Canon.Spec Verif.Scenario Verif.Orbits Verif.Components Verif.Moment Verif.MomentMatrix Verif.SymMM Verif.SdpRepr Verif.Text Verif.Names
open Verif.State (Dict Mon)
open Verif.EndToEnd (Input)
open Verif.SdpEnd (nOps InRange symmetries notcomm orthomat allCommute symData operatorList doConditional isZero)
open Verif.Symmetry (lexorderSymmetries sdpSymmetries padRow Relabelling)
open Verif.Sanitise (naming NamesOk interps_facts row_lt row_inverse parents_lt parents_nodup operators_ne operators_inj first_copies_eq)

variable {I : Input} {names : List Str}

/-- The word with the numbers of the operators in `InflationProblem`. -/
def shift (a : Atom) : Atom := a.map (· - 1)

theorem operators_shift {a : Atom} (h0 : 0 ∉ a) : SdpEnd.operators I a = I.operators (shift a) := by
  unfold SdpEnd.operators Input.operators shift
  rw [List.filterMap_map]
  apply List.filterMap_congr
  intro x hx
  have : x ≠ 0 := fun e => h0 (e ▸ hx)
  simp [this]

theorem shift_inj {a b : Atom} (ha : 0 ∉ a) (hb : 0 ∉ b) (h : shift a = shift b) : a = b := by
  have back : ∀ {a : Atom}, 0 ∉ a → (shift a).map (· + 1) = a := by
    intro a ha
    unfold shift
    rw [List.map_map]
    conv_rhs => rw [← List.map_id a]
    apply List.map_congr_left
    intro x hx
    have : x ≠ 0 := fun e => ha (e ▸ hx)
    simp only [Function.comp_apply, id]
    omega
  rw [← back ha, ← back hb, h]

theorem shift_lt {a : Atom} (h : InRange I a) (h0 : 0 ∉ a) : ∀ x ∈ shift a, x < I.scenario.lexorder.length := by
  intro x hx
  obtain ⟨y, hy, rfl⟩ := List.mem_map.1 hx
  have := h y hy
  have h1 : y ≠ 0 := fun e => h0 (e ▸ hy)
  unfold nOps at this
  omega

theorem shift_ne {a : Atom} (h : a ≠ []) : shift a ≠ [] := by simpa [shift] using h

theorem operators_valid' {a : Atom} (h0 : 0 ∉ a) : ∀ op ∈ SdpEnd.operators I a, Valid I.scenario op := by
  rw [operators_shift h0]
  exact EndToEnd.operators_valid _

theorem nameWith_some (h : NamesOk I names) (f com : Bool) {a : Atom} (h0 : 0 ∉ a) :
    momentName I.scenario (naming I names) f com (SdpEnd.operators I a) = some (nameWith I names f com a) := by
  obtain ⟨iu, hiu⟩ := mapM_isSome (f := interpret I.scenario (naming I names)) (l := SdpEnd.operators I a)
    (fun op hop => by obtain ⟨i, -, hi, -⟩ := interpret_some h.fits (operators_valid' h0 op hop); exact ⟨i, hi⟩)
  unfold nameWith momentName
  rw [hiu]
  rfl

/-- The name of an atom is of the form `P[...]` or `<...>`, without a product sign. -/
theorem nameWith_form (h : NamesOk I names) (f com : Bool) {a : Atom} (h0 : 0 ∉ a) :
    ∃ t, nameWith I names f com a = (if com then 'P' :: '[' :: t ++ [']'] else '<' :: t ++ ['>']) ∧ '*' ∉ t := by
  have hs := nameWith_some h f com h0
  unfold momentName at hs
  rcases hi : (SdpEnd.operators I a).mapM (interpret I.scenario (naming I names)) with _ | is
  · rw [hi] at hs; simp at hs
  rw [hi, Option.map_some, Option.some.injEq] at hs
  have hfacts := interps_facts h (operators_valid' h0) (mapM_some_forall2 hi)
  refine ⟨_, by rw [← hs]; unfold atomName; rfl, ?_⟩
  intro hm
  rcases mem_joinStr hm with hm | ⟨w, hw, hm⟩
  · simp at hm
  · obtain ⟨i, hi, c, d, hd, rfl⟩ : ∃ i ∈ is, ∃ c d, (∀ kv ∈ d, kv ∈ i.doValues) ∧ w = opName c { i with doValues := d } := by
      split at hw
      · obtain ⟨i, hi, rfl⟩ := List.mem_map.1 hw
        exact ⟨i, hi, false, _, fun kv hkv => List.mem_of_mem_filter hkv, rfl⟩
      · obtain ⟨i, hi, rfl⟩ := List.mem_map.1 hw
        exact ⟨i, hi, _, i.doValues, fun kv hkv => hkv, rfl⟩
    rcases mem_opName' (N := naming I names) (i := { i with doValues := d }) (hfacts i hi).1 (fun kv hkv => (hfacts i hi).2 kv (hd kv hkv)) hm with ⟨n, hn, hx⟩ | hx | hx
    · exact h.avoid n hn '*' (by simp) hx
    · exact not_digit (by simp) hx
    · simp at hx

theorem nameWith_like (h : NamesOk I names) (f com : Bool) {a : Atom} (h0 : 0 ∉ a) : AtomLike (nameWith I names f com a) := by
  obtain ⟨t, e, ht⟩ := nameWith_form h f com h0
  rw [e]
  cases com
  · refine ⟨by simp [ht], '>', '<' :: t, by simp, not_digit (by simp)⟩
  · refine ⟨by simp [ht], ']', 'P' :: '[' :: t, by simp, not_digit (by simp)⟩

theorem mem_joinStr_of_mem {sep c : Char} {l : List Str} {w : Str} (hw : w ∈ l) (hc : c ∈ w) : c ∈ joinStr sep l := by
  induction l with
  | nil => cases hw
  | cons a l ih =>
    match l, ih with
    | [], _ =>
      have : w = a := by simpa using hw
      subst this
      simpa [joinStr] using hc
    | b :: l, ih =>
      rcases List.mem_cons.1 hw with rfl | hw
      · simp [joinStr, hc]
      · have := ih hw
        simp only [joinStr, List.mem_append, List.mem_cons]
        exact .inr (.inr this)

/-! ### Names without copy indices -/

theorem padRow_get {r : List Nat} (hr : r ∈ lexorderSymmetries I.scenario) {x : Nat} (hx : x < nOps I) (h0 : x ≠ 0) : (padRow r).getD x x = r.getD (x - 1) 0 + 1 := by
  have hp := (symmetries_isGroup I.scenario).perm r hr
  have hl : r.length = I.scenario.lexorder.length := by simpa using hp.length_eq
  obtain ⟨k, rfl⟩ := Nat.exists_eq_succ_of_ne_zero h0
  unfold nOps at hx
  have hk : k < r.length := by omega
  unfold padRow
  simp [List.getD_eq_getElem?_getD, List.getElem?_eq_getElem hk]

/-- Two do-conditional words with the same parties, settings and outcomes are related by a relabelling of copies. -/
theorem doConditional_orbit {a b : Atom} (ha : InRange I a) (hb : InRange I b) (ha0 : 0 ∉ a) (hb0 : 0 ∉ b) (hda : doConditional I a = true) (hdb : doConditional I b = true) (hane : a ≠ [])
    (hbne : b ≠ []) (he : (SdpEnd.operators I a).map (fun x => (x.party, x.setting, x.outcome)) = (SdpEnd.operators I b).map (fun x => (x.party, x.setting, x.outcome))) :
    SdpRepr.SameOrbit (notcomm I) (symmetries I) a b := by
  have key : ∀ {a : Atom}, InRange I a → 0 ∉ a → doConditional I a = true → a ≠ [] →
      ∃ g r, Relabelling I.scenario g ∧ r ∈ lexorderSymmetries I.scenario ∧ Knowable.OnFirstCopies g (SdpEnd.operators I a) ∧
        I.operators ((shift a).map fun i => r.getD i 0) = (SdpEnd.operators I a).map (Verif.Symmetry.act g) := by
    intro a ha h0 hd hne
    have hd' : Knowable.isDoConditional I.scenario.nSources (SdpEnd.operators I a) = true := by
      unfold SdpEnd.doConditional at hd
      simp only [Bool.or_eq_true] at hd
      rcases hd with (hd | hd) | hd
      · simp [hne] at hd
      · simp [isZero, h0] at hd
      · exact hd
    obtain ⟨g, hg, hon⟩ := (Knowable.C20_do_conditional_iff I.scenario _ (operators_valid' h0)).1 hd'
    obtain ⟨r, hr, hind⟩ := Verif.Symmetry.C14_no_symmetry_missed I.scenario g hg
    refine ⟨g, r, hg, hr, hon, ?_⟩
    have ha' := shift_lt ha h0
    rw [operators_shift h0]
    unfold Input.operators
    rw [List.filterMap_map]
    have : ∀ l : List Nat, (∀ x ∈ l, x < I.scenario.lexorder.length) → l.filterMap ((fun r => I.scenario.lexorder[r]?) ∘ fun i => r.getD i 0) =
        (l.filterMap fun r => I.scenario.lexorder[r]?).map (Verif.Symmetry.act g) := by
      intro l hl
      induction l with
      | nil => rfl
      | cons i l ih =>
        have hi := hl i (List.mem_cons_self ..)
        obtain ⟨j, hj, e⟩ := hind.2 i hi
        have hri : r.getD i 0 = j := by rw [List.getD_eq_getElem?_getD, hj]; rfl
        rw [List.getElem?_eq_getElem hi, Option.map_some] at e
        rw [List.filterMap_cons_some (b := Verif.Symmetry.act g I.scenario.lexorder[i]) (by show I.scenario.lexorder[r.getD i 0]? = _; rw [hri, e]),
          List.filterMap_cons_some (List.getElem?_eq_getElem hi), List.map_cons, ih fun x hx => hl x (List.mem_cons_of_mem _ hx)]
    exact this _ ha'
  obtain ⟨g, r, hg, hr, hon, ed⟩ := key ha ha0 hda hane
  obtain ⟨g', r', hg', hr', hon', ed'⟩ := key hb hb0 hdb hbne
  have lt : ∀ {a : Atom} {r : List Nat}, InRange I a → 0 ∉ a → r ∈ lexorderSymmetries I.scenario → ∀ x ∈ (shift a).map fun i => r.getD i 0, x < I.scenario.lexorder.length := by
    intro a r ha h0 hr x hx
    obtain ⟨i, hi, rfl⟩ := List.mem_map.1 hx
    exact row_lt hr (shift_lt ha h0 i hi)
  have hdd : (shift a).map (fun i => r.getD i 0) = (shift b).map fun i => r'.getD i 0 := by
    apply operators_inj (lt ha ha0 hr) (lt hb hb0 hr')
    rw [ed, ed']
    have hl : (SdpEnd.operators I a).length = (SdpEnd.operators I b).length := by simpa using congrArg List.length he
    apply List.ext_getElem (by simpa using hl)
    intro i hi hj
    rw [List.getElem_map, List.getElem_map]
    have hi' : i < (SdpEnd.operators I a).length := by simpa using hi
    have hj' : i < (SdpEnd.operators I b).length := by simpa using hj
    have e := congrArg (fun l => l[i]?) he
    simp only [List.getElem?_map, List.getElem?_eq_getElem hi', List.getElem?_eq_getElem hj', Option.map_some, Option.some.injEq, Prod.mk.injEq] at e
    have m1 := List.getElem_mem hi'
    have m2 := List.getElem_mem hj'
    exact first_copies_eq (Verif.Symmetry.act_valid I.scenario hg (operators_valid' ha0 _ m1)) (Verif.Symmetry.act_valid I.scenario hg' (operators_valid' hb0 _ m2)) (hon _ m1) (hon' _ m2)
      e.1 e.2.1 e.2.2
  have image : ∀ {a : Atom} {r : List Nat}, InRange I a → 0 ∉ a → r ∈ lexorderSymmetries I.scenario →
      (a.map fun x => (padRow r).getD x x) = ((shift a).map fun i => r.getD i 0).map (· + 1) := by
    intro a r ha h0 hr
    unfold shift
    rw [List.map_map, List.map_map]
    apply List.map_congr_left
    intro x hx
    rw [padRow_get hr (ha x hx) (fun e => h0 (e ▸ hx))]
    rfl
  have orb : ∀ {a : Atom} {r : List Nat}, InRange I a → 0 ∉ a → r ∈ lexorderSymmetries I.scenario →
      SdpRepr.SameOrbit (notcomm I) (symmetries I) a (((shift a).map fun i => r.getD i 0).map (· + 1)) := by
    intro a r ha h0 hr
    exact ⟨padRow r, List.mem_map.2 ⟨r, hr, rfl⟩, by rw [image ha h0 hr]; exact .refl _⟩
  have o1 := orb ha ha0 hr
  rw [hdd] at o1
  exact SdpRepr.sameOrbit_trans (symData I) ha o1 (SdpRepr.sameOrbit_symm (symData I) hb (orb hb hb0 hr'))

/-! ### Different atoms have different names -/

theorem least_eq {a b : Atom} (ha : Representative I a) (hb : Representative I b) (h : SdpRepr.SameOrbit (notcomm I) (symmetries I) a b) : a = b :=
  isLeast_unique ha.least (isLeast_congr (symData I) hb.range (SdpRepr.sameOrbit_symm (symData I) ha.range h) hb.least)

/-- The two kinds of names. -/
theorem named_form {a : Atom} (h : Plain I a) {t : Str} (ht : AtomNamed I names a t) :
    ∃ f com, t = nameWith I names f com a ∧ (f = true → doConditional I a = true) := by
  cases ht with
  | created =>
    refine ⟨_, allCommuting (notcomm I) (allCommute I) a, ?_, fun h => h⟩
    unfold createdText
    rw [if_neg (by simpa using h.ne), if_neg (by simpa [isZero] using h.nonzero)]
  | adjoint _ => exact ⟨false, false, rfl, fun h => by cases h⟩

theorem named_like (hN : NamesOk I names) {a : Atom} (h : Plain I a) {t : Str} (ht : AtomNamed I names a t) : AtomLike t := by
  obtain ⟨f, com, rfl, -⟩ := named_form h ht
  exact nameWith_like hN f com h.nonzero

/-- Two atoms which have a name in common are the same. -/
theorem named_inj (hN : NamesOk I names) {a b : Atom} (ha : Plain I a) (hb : Plain I b) {t : Str} (h1 : AtomNamed I names a t) (h2 : AtomNamed I names b t) : a = b := by
  obtain ⟨f, com, e1, d1⟩ := named_form ha h1
  obtain ⟨f', com', e2, d2⟩ := named_form hb h2
  have oa := operators_ne (shift_lt ha.repr.range ha.nonzero) (shift_ne ha.ne)
  have ob := operators_ne (shift_lt hb.repr.range hb.nonzero) (shift_ne hb.ne)
  obtain ⟨-, k1, k2, k3⟩ := C40_moment_names hN.fits (hN.avoids _ (by decide)) (fun p _ => parents_lt p) (fun p _ => parents_nodup p) (SdpEnd.operators I a) (SdpEnd.operators I b)
    (operators_valid' ha.nonzero) (operators_valid' hb.nonzero) (by rw [operators_shift ha.nonzero]; exact oa) (by rw [operators_shift hb.nonzero]; exact ob) f f' com com'
    (by rw [nameWith_some hN _ _ ha.nonzero, nameWith_some hN _ _ hb.nonzero, ← e1, ← e2])
  by_cases hf : f = false ∨ anyInflation I.scenario = false
  · have := k3 hf
    rw [operators_shift ha.nonzero, operators_shift hb.nonzero] at this
    exact shift_inj ha.nonzero hb.nonzero (operators_inj (shift_lt ha.repr.range ha.nonzero) (shift_lt hb.repr.range hb.nonzero) this)
  · push Not at hf
    have hft : f = true := by simpa using hf.1
    have hft' : f' = true := by rw [← k1 (by simpa using hf.2)]; exact hft
    exact least_eq ha.repr hb.repr (doConditional_orbit ha.repr.range hb.repr.range ha.nonzero hb.nonzero (d1 hft) (d2 hft') ha.ne hb.ne k2)

/-- Two moments which have a name in common are the same. -/
theorem momentNamed_inj (hN : NamesOk I names) {m m' : Mon} (hm : ProperMoment I m) (hm' : ProperMoment I m') {t : Str} (h1 : MomentNamed I names m t) (h2 : MomentNamed I names m' t) :
    m = m' := by
  obtain ⟨l, f1, e1⟩ := h1
  obtain ⟨l', f2, e2⟩ := h2
  have zero_text : ∀ {l : List Str}, List.Forall₂ (AtomNamed I names) [[0]] l → l = [['0']] := by
    intro l h
    cases h with
    | cons h h' =>
      cases h' with
      | nil =>
        cases h with
        | created => rfl
        | adjoint h => simp [allCommuting, notcomm_self] at h
  have join0 : joinChars [['0']] = ['0'] := by decide
  -- a product of atoms that are not zero does not have the name of zero
  have nonzero : ∀ {m : Mon} {l : List Str}, (∀ a ∈ m, Plain I a) → List.Forall₂ (AtomNamed I names) m l → (∀ n ∈ l, AtomLike n) := by
    intro m l hp hF n hn
    obtain ⟨a, ha, hn'⟩ := Sanitise.forall2_mem_right hF hn
    exact named_like hN (hp a ha) hn'
  have notZero : ∀ {l : List Str}, (∀ n ∈ l, AtomLike n) → joinChars l ≠ ['0'] := by
    intro l hl e
    match l, hl, e with
    | [], _, e => simp [joinChars] at e
    | n :: l, hl, e =>
      obtain ⟨t, ht, hlen⟩ : ∃ t ∈ counter (n :: l), True := by
        have : counter (n :: l) ≠ [] := by
          unfold counter
          intro e
          have := List.map_eq_nil_iff.1 e
          have hn : n ∈ dedupB (n :: l) := mem_dedupB.2 (by simp)
          rw [this] at hn
          simp at hn
        obtain ⟨t, ht⟩ := List.exists_mem_of_ne_nil _ this
        exact ⟨t, ht, trivial⟩
      have hin : t.1 ∈ n :: l := by
        unfold counter at ht
        obtain ⟨a, ha, rfl⟩ := List.mem_map.1 ht
        exact mem_dedupB.1 ha
      obtain ⟨c, s, es, hc⟩ := (hl t.1 hin).last
      -- the last character of the factor occurs in the product
      have hmem : c ∈ joinChars (n :: l) := by
        unfold joinChars
        rw [if_neg (by simp), intercalate_eq]
        apply mem_joinStr_of_mem
        · exact List.mem_map.2 ⟨t, ht, rfl⟩
        · split <;> simp [es]
      rw [e] at hmem
      rcases List.mem_singleton.1 hmem with rfl
      exact hc (by unfold Digit; decide)
  rcases hm.atoms with rfl | p1
  · rcases hm'.atoms with rfl | p2
    · rfl
    · rw [zero_text f1, join0] at e1
      exact absurd (e2.symm.trans e1) (notZero (nonzero p2 f2))
  · rcases hm'.atoms with rfl | p2
    · rw [zero_text f2, join0] at e2
      exact absurd (e1.symm.trans e2) (notZero (nonzero p1 f1))
    · have hp : l.Perm l' := C40_product_names l l' (nonzero p1 f1) (nonzero p2 f2) (e1.symm.trans e2)
      -- permute the texts and the atoms together
      obtain ⟨k, hk1, hk2⟩ := List.perm_comp_forall₂ hp f2.flip
      have gen : ∀ {m k : Mon} {l : List Str}, (∀ a ∈ m, Plain I a) → (∀ a ∈ k, Plain I a) → List.Forall₂ (AtomNamed I names) m l → List.Forall₂ (flip (AtomNamed I names)) l k → m = k := by
        intro m k l h1 h2 hF
        induction hF generalizing k with
        | nil => intro h; cases h; rfl
        | cons h _ ih =>
          intro h'
          cases h' with
          | cons q1 q2 => rw [named_inj hN (h1 _ (by simp)) (h2 _ (by simp)) h q1, ih (fun a ha => h1 a (by simp [ha])) (fun a ha => h2 a (by simp [ha])) q2]
      have hmk : m = k := gen p1 (fun a ha => p2 a (hk2.mem_iff.1 ha)) f1 hk1
      rw [← hmk] at hk2
      exact hk2.eq_of_pairwise (fun a b _ _ h1 h2 => atomLe_antisymm a b h1 h2) hm.sorted hm'.sorted

end Verif.SdpNames
