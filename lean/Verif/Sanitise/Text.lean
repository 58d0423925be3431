import Verif.Sanitise.Relabel
import Verif.Sanitise.Spec
import Verif.Names.Products
import Verif.Knowable.Props
import Verif.EndToEnd.Known
/-!
The names of the atoms: which characters they start and end with, and that different representatives have different names.
-/
namespace Verif.Sanitise
open Verif.Common Verif.Scenario Verif.Orbits Verif.Components Verif.Moment Verif.State Verif.Text Verif.Names Verif.EndToEnd
open Verif.Symmetry (lexorderSymmetries Relabelling)

variable {I : Input} {names : List Str}

theorem NamesOk.fits (h : NamesOk I names) : Fits I.scenario (naming I names) where
  len := h.len
  nodup := h.nodup
  settings := fun _ _ => rfl

theorem parents_lt (p : Nat) : ∀ q ∈ (naming I names).parents p, q < I.scenario.nParties := by
  intro q hq
  have hq : q ∈ I.parents p := hq
  unfold Input.parents at hq
  exact List.mem_range.1 (List.mem_of_mem_filter hq)

theorem parents_nodup (p : Nat) : ((naming I names).parents p).Nodup := List.nodup_range.filter _

theorem NamesOk.avoids (h : NamesOk I names) (cs : List Char) (hcs : ∀ c ∈ cs, c ∈ ['_', '^', '=', ' ', '*', '∅', '<', '[', '(', '&', ',', '{', '}', ')', ']', '|']) :
    Avoid (naming I names) cs := fun n hn c hc => h.avoid n hn c (hcs c hc)

theorem operators_ne {a : Atom} (ha : ∀ x ∈ a, x < I.scenario.lexorder.length) (hne : a ≠ []) : I.operators a ≠ [] := by
  obtain ⟨x, hx⟩ := List.exists_mem_of_ne_nil a hne
  have := ha x hx
  exact List.ne_nil_of_mem (List.mem_filterMap.2 ⟨x, hx, List.getElem?_eq_getElem this⟩)

theorem operators_inj {a b : Atom} (ha : ∀ x ∈ a, x < I.scenario.lexorder.length) (hb : ∀ x ∈ b, x < I.scenario.lexorder.length) (h : I.operators a = I.operators b) : a = b := by
  have h1 := operators_spec (I := I) ha
  have h2 := operators_spec (I := I) hb
  rw [h, ← h2] at h1
  have hl : a.length = b.length := by simpa using congrArg List.length h1
  apply List.ext_getElem hl
  intro i hi hj
  have e := congrArg (fun l => l[i]?) h1
  simp only [List.getElem?_map, List.getElem?_eq_getElem hi, List.getElem?_eq_getElem hj, Option.map_some, Option.some.injEq] at e
  rw [List.getElem?_eq_getElem (ha _ (List.getElem_mem hi)), List.getElem?_eq_getElem (hb _ (List.getElem_mem hj)), Option.some.injEq] at e
  exact (lexorder_nodup I.scenario).getElem_inj_iff.1 e

theorem atomText_some (h : NamesOk I names) (a : Atom) : momentName I.scenario (naming I names) (I.doConditional a) true (I.operators a) = some (atomText I names a) := by
  obtain ⟨iu, hiu⟩ := mapM_isSome (f := interpret I.scenario (naming I names)) (l := I.operators a)
    (fun op hop => by obtain ⟨i, -, hi, -⟩ := interpret_some h.fits (operators_valid a op hop); exact ⟨i, hi⟩)
  unfold atomText momentName
  rw [hiu]
  rfl

theorem interps_facts (h : NamesOk I names) {w : List Op} {iw : List Interp} (hw : ∀ a ∈ w, Valid I.scenario a)
    (hF : List.Forall₂ (fun a b => interpret I.scenario (naming I names) a = some b) w iw) :
    ∀ i ∈ iw, i.party ∈ (naming I names).names ∧ ∀ kv ∈ i.doValues, kv.1 ∈ (naming I names).names := by
  induction hF with
  | nil => intro i hi; simp at hi
  | @cons a i w iw hh _ ih =>
    intro j hj
    rcases List.mem_cons.1 hj with rfl | hj
    · have ha := hw a (by simp)
      obtain ⟨t, hi⟩ := interp_of h.fits ha hh
      refine ⟨by rw [hi.party]; exact name_mem h.fits ha, ?_⟩
      rintro ⟨k, x⟩ hkv
      rw [hi.doValues] at hkv
      obtain ⟨q, hq, rfl⟩ := List.mem_map.1 (List.of_mem_zip hkv).1
      have : q < (naming I names).names.length := by rw [h.fits.len]; exact parents_lt _ q hq
      rw [List.getD_eq_getElem _ _ this]
      exact List.getElem_mem this
    · exact ih (fun x hx => hw x (by simp [hx])) j hj

/-- The name of an atom is of the form `P[...]`, without a product sign. -/
theorem atomText_form (h : NamesOk I names) (a : Atom) : ∃ t, atomText I names a = 'P' :: '[' :: t ++ [']'] ∧ '*' ∉ t := by
  have hs := atomText_some h a
  unfold momentName at hs
  rcases hi : (I.operators a).mapM (interpret I.scenario (naming I names)) with _ | is
  · rw [hi] at hs; simp at hs
  rw [hi, Option.map_some, Option.some.injEq] at hs
  have hfacts := interps_facts h (operators_valid a) (mapM_some_forall2 hi)
  refine ⟨_, by rw [← hs]; unfold atomName; rw [if_pos rfl], ?_⟩
  intro hm
  rcases mem_joinStr hm with hm | ⟨w, hw, hm⟩
  · simp at hm
  · obtain ⟨i, hi, c, d, hd, rfl⟩ : ∃ i ∈ is, ∃ c d, (∀ kv ∈ d, kv ∈ i.doValues) ∧ w = opName c { i with doValues := d } := by
      split at hw
      · obtain ⟨i, hi, rfl⟩ := List.mem_map.1 hw
        exact ⟨i, hi, false, _, fun kv hkv => List.mem_of_mem_filter hkv, rfl⟩
      · obtain ⟨i, hi, rfl⟩ := List.mem_map.1 hw
        exact ⟨i, hi, _, i.doValues, fun kv hkv => hkv, rfl⟩
    rcases mem_opName' (N := naming I names) (i := { i with doValues := d }) (hfacts i hi).1 (fun kv hkv => (hfacts i hi).2 kv (hd kv hkv)) hm with ⟨n, hn, hx⟩ | hx | hx
    · exact h.avoid n hn '*' (by simp) hx
    · exact not_digit (by simp) hx
    · simp at hx

theorem atomText_like (h : NamesOk I names) (a : Atom) : AtomLike (atomText I names a) := by
  obtain ⟨t, e, ht⟩ := atomText_form h a
  refine ⟨?_, ']', 'P' :: '[' :: t, by rw [e], not_digit (by simp)⟩
  rw [e]
  simp [ht]

/-- Operators on first copies only: the operators of a do-conditional, relabelled, are determined by parties, settings and outcomes. -/
theorem first_copies_eq {S : Scenario} {x y : Op} (hx : Valid S x) (hy : Valid S y) (h1 : ∀ c ∈ x.copies, c ≤ 1) (h2 : ∀ c ∈ y.copies, c ≤ 1) (hp : x.party = y.party)
    (hs : x.setting = y.setting) (ho : x.outcome = y.outcome) : x = y := by
  have hc : x.copies = y.copies := by
    apply List.ext_getElem (by rw [hx.copies_len, hy.copies_len])
    intro s hsx hsy
    have a1 := hx.copies_ok s hsx
    have a2 := hy.copies_ok s hsy
    rw [← hp] at a2
    have b1 := h1 _ (List.getElem_mem hsx)
    have b2 := h2 _ (List.getElem_mem hsy)
    split at a1
    · rw [if_pos (by assumption)] at a2; omega
    · rw [if_neg (by assumption)] at a2; omega
  cases x; cases y
  simp_all

/-- Two do-conditional atoms with the same parties, settings and outcomes are related by a relabelling of copies. -/
theorem doConditional_orbit {a b : Atom} (ha : ∀ x ∈ a, x < I.scenario.lexorder.length) (hb : ∀ x ∈ b, x < I.scenario.lexorder.length)
    (hda : I.doConditional a = true) (hdb : I.doConditional b = true) (hane : a ≠ []) (hbne : b ≠ [])
    (he : (I.operators a).map (fun x => (x.party, x.setting, x.outcome)) = (I.operators b).map (fun x => (x.party, x.setting, x.outcome))) :
    SameOrbit (lexorderSymmetries I.scenario) (boolKey I.scenario.lexorder.length a) (boolKey I.scenario.lexorder.length b) := by
  have hG := symmetries_isGroup I.scenario
  -- relabelling of an atom to first copies
  have key : ∀ {a : Atom}, (∀ x ∈ a, x < I.scenario.lexorder.length) → I.doConditional a = true → a ≠ [] →
      ∃ g, Relabelling I.scenario g ∧ Knowable.OnFirstCopies g (I.operators a) ∧
        ∃ d : List Nat, (∀ x ∈ d, x < I.scenario.lexorder.length) ∧ I.operators d = (I.operators a).map (Verif.Symmetry.act g) ∧
          SameOrbit (lexorderSymmetries I.scenario) (boolKey I.scenario.lexorder.length d) (boolKey I.scenario.lexorder.length a) := by
    intro a ha hd hne
    have hd' : Knowable.isDoConditional I.scenario.nSources (I.operators a) = true := by
      unfold Input.doConditional at hd
      rw [Bool.or_eq_true] at hd
      rcases hd with hd | hd
      · simp [hne] at hd
      · exact hd
    obtain ⟨g, hg, hon⟩ := (Knowable.C20_do_conditional_iff I.scenario _ (operators_valid a)).1 hd'
    obtain ⟨r, hr, hind⟩ := Verif.Symmetry.C14_no_symmetry_missed I.scenario g hg
    have hp := hG.perm r hr
    obtain ⟨u, hu, eu⟩ := row_inverse hr
    refine ⟨g, hg, hon, a.map (fun i => r.getD i 0), ?_, ?_, r, hr, ?_⟩
    · intro x hx
      obtain ⟨i, hi, rfl⟩ := List.mem_map.1 hx
      exact row_lt hr (ha i hi)
    · unfold Input.operators
      rw [List.filterMap_map]
      have : ∀ l : List Nat, (∀ x ∈ l, x < I.scenario.lexorder.length) → l.filterMap ((fun r => I.scenario.lexorder[r]?) ∘ fun i => r.getD i 0) =
          (l.filterMap fun r => I.scenario.lexorder[r]?).map (Verif.Symmetry.act g) := by
        intro l hl
        induction l with
        | nil => rfl
        | cons i l ih =>
          have hi := hl i (List.mem_cons_self ..)
          obtain ⟨j, hj, e⟩ := hind.2 i hi
          have hri : r.getD i 0 = j := by rw [List.getD_eq_getElem?_getD, hj]; rfl
          rw [List.getElem?_eq_getElem hi, Option.map_some] at e
          rw [List.filterMap_cons_some (b := Verif.Symmetry.act g I.scenario.lexorder[i]) (by show I.scenario.lexorder[r.getD i 0]? = _; rw [hri, e]),
            List.filterMap_cons_some (List.getElem?_eq_getElem hi), List.map_cons, ih fun x hx => hl x (List.mem_cons_of_mem _ hx)]
      exact this a ha
    · rw [image_boolKey hp]
      intro i hi
      rw [List.mem_map]
      constructor
      · intro h; exact ⟨i, h, rfl⟩
      · rintro ⟨j, hj, e⟩
        have := (eu i hi).1
        rw [← e, (eu j (ha j hj)).1] at this
        exact this ▸ hj
  obtain ⟨g, hg, hon, d, hd, ed, od⟩ := key ha hda hane
  obtain ⟨g', hg', hon', d', hd', ed', od'⟩ := key hb hdb hbne
  have hdd : d = d' := by
    apply operators_inj hd hd'
    rw [ed, ed']
    have hl : (I.operators a).length = (I.operators b).length := by simpa using congrArg List.length he
    apply List.ext_getElem (by simpa using hl)
    intro i hi hj
    rw [List.getElem_map, List.getElem_map]
    have hi' : i < (I.operators a).length := by simpa using hi
    have hj' : i < (I.operators b).length := by simpa using hj
    have e := congrArg (fun l => l[i]?) he
    simp only [List.getElem?_map, List.getElem?_eq_getElem hi', List.getElem?_eq_getElem hj', Option.map_some, Option.some.injEq, Prod.mk.injEq] at e
    have m1 := List.getElem_mem hi'
    have m2 := List.getElem_mem hj'
    exact first_copies_eq (Verif.Symmetry.act_valid I.scenario hg (operators_valid a _ m1)) (Verif.Symmetry.act_valid I.scenario hg' (operators_valid b _ m2)) (hon _ m1) (hon' _ m2)
      e.1 e.2.1 e.2.2
  subst hdd
  exact sameOrbit_trans hG (sameOrbit_symm hG (boolKey_length _ _) od) od'

/-- Two atoms of the cache with the same name are the same. -/
theorem atomText_inj (h : NamesOk I names) {c : Cache} (hc : CacheInv I.scenario.lexorder.length (lexorderSymmetries I.scenario) c) {a b : Atom} {k k' : List Bool}
    (ha : c.lookup k = some a) (hb : c.lookup k' = some b) (he : atomText I names a = atomText I names b) : a = b := by
  have la := hc.lt _ _ ha
  have lb := hc.lt _ _ hb
  have na := hc.ne _ _ ha
  have nb := hc.ne _ _ hb
  obtain ⟨-, h1, h2, h3⟩ := C40_moment_names h.fits (h.avoids _ (by decide)) (fun p _ => parents_lt p) (fun p _ => parents_nodup p) (I.operators a) (I.operators b)
    (operators_valid a) (operators_valid b) (operators_ne la na) (operators_ne lb nb) (I.doConditional a) (I.doConditional b) true true
    (by rw [atomText_some h, atomText_some h, he])
  by_cases hf : I.doConditional a = false ∨ anyInflation I.scenario = false
  · exact operators_inj la lb (h3 hf)
  · push Not at hf
    have da : I.doConditional a = true := by simpa using hf.1
    have db : I.doConditional b = true := by rw [← h1 (by simpa using hf.2)]; exact da
    have ho := doConditional_orbit la lb da db na nb h2
    have e1 := hc.self ha
    have e2 := hc.self hb
    have e3 := hc.closed _ _ _ e1 ho
    rw [e2] at e3
    exact (Option.some.inj e3).symm

end Verif.Sanitise
