import Verif.Hierarchy.Solves
import Verif.Hierarchy.Values
import Verif.Linear.Props
import Verif.Generate.Build
/-!
`set_distribution` with a larger generating set: every moment known with the smaller one is known with the larger one, with the same value.
-/
namespace Verif.Hierarchy
open Verif.Common Verif.Canon Verif.Canon.Spec Verif.Scenario Verif.Components Verif.Moment Verif.MomentMatrix Verif.SymMM Verif.SdpRepr Verif.SdpEnd Verif.SdpNames Verif.Symmetry Verif.Generate Verif.Physical
open Verif.State (Dict Mon get_set get_none mem_keys get_filter)
open Verif.SdpState (Call Args SolverOut atomicKnowns one valuesOf)
open Verif.EndToEnd (Input)

variable {I : Input} {ch : Choice} {name : Atom → String} {cols cols₁ cols₂ : List (List Nat)} {B B₁ B₂ : Built}

/-- The zero moment is a moment of the program exactly if the program has `self.Zero`. -/
theorem zero_iff (hch : UsualChoice ch I) (hV : Setup I cols ch name B) : [[0]] ∈ B.env.moments ↔ B.env.zero = some [[0]] := by
  obtain ⟨orbits, repr, c, eqs, h1, h2, h3, _, _, _, henv⟩ := build_some hV.built
  obtain ⟨hnd, hc1, hc2⟩ := symmetrizedCorresp_get h2
  have hkeys : B.index.keys.Nodup := by rw [h3]; exact momentIndex_nodup ch name _ c
  have hzero : B.env.zero = if B.sym.contains 0 then some [[0]] else none := by rw [henv]
  constructor
  · intro hm
    have hmom : B.env.moments = B.index.map Prod.snd := by rw [henv]
    rw [hmom] at hm
    obtain ⟨⟨k, m'⟩, ht, e⟩ := List.mem_map.1 hm
    have e : m' = [[0]] := e
    subst e
    have hg := (State.get_of_mem _ hkeys k _).1 ht
    rw [h3, momentIndex_get ch name _ c hnd] at hg
    rcases hck : c.get k with _ | w
    · rw [hck] at hg
      dsimp only at hg
      split at hg
      · rename_i h
        rw [hzero, if_pos h.1]
      · cases hg
    · rw [hck] at hg
      obtain ⟨idx, _, _, _, hw⟩ := hc1 k w hck
      unfold corresp at hw
      obtain ⟨t, ht, rfl⟩ := Option.map_eq_some_iff.1 hw
      have hm := List.mem_of_find?_eq_some ht
      have hlt := hV.columns.lt
      exact absurd (Option.some.inj hg) (momentOf_ne_zero hch name hV.copies (table_reduced hlt t hm).2 (table_nonzero hlt t hm) (table_reduced hlt t hm).1)
  · intro h
    exact zero_mem hV.columns hV.built _ h

theorem env_same (hV₁ : Setup I cols₁ ch name B₁) (hV₂ : Setup I cols₂ ch name B₂) : B₁.env.info = B₂.env.info ∧ B₁.env.dagger = B₂.env.dagger := by
  obtain ⟨_, _, _, _, _, _, _, _, _, _, h1⟩ := build_some hV₁.built
  obtain ⟨_, _, _, _, _, _, _, _, _, _, h2⟩ := build_some hV₂.built
  rw [h1, h2]
  exact ⟨rfl, rfl⟩

/-- The atoms of a larger program. -/
theorem atomics_mono (hch : UsualChoice ch I) (hV₁ : Setup I cols₁ ch name B₁) (hV₂ : Setup I cols₂ ch name B₂) (hsub : ∀ m ∈ cols₁, m ∈ cols₂) {m : Mon} (hm : m ∈ atomicMonomials B₁) : m ∈ atomicMonomials B₂ := by
  obtain ⟨a, ha, rfl⟩ := List.mem_map.1 hm
  have ha := mem_sortBy.1 ha
  rw [mem_dedupB] at ha
  obtain ⟨n, hn, han⟩ := List.mem_flatten.1 ha
  refine List.mem_map.2 ⟨a, mem_sortBy.2 ((mem_dedupB).2 (List.mem_flatten.2 ⟨n, moments_mono hch hV₁ hV₂ hsub n hn, han⟩)), ?_⟩
  obtain ⟨h1, h2⟩ := env_same hV₁ hV₂
  unfold SdpState.monFromAtoms
  rw [h1, h2]

/-- The values which `set_distribution` gives to `set_values`. -/
theorem values_iff {P : List Nat → Rat} {v : List (Mon × Option Rat)} (hv : distributionValues I B P = some v) (t : Mon × Option Rat) :
    t ∈ v ↔ ∃ y, t.2 = some y ∧ t.1 ∈ atomicMonomials B ∧ t.1.all (knowable I) = true ∧ momentMarginal I P t.1 = some y := by
  unfold distributionValues at hv
  have hf := List.forall₂_iff_get.1 (Verif.LpSolver.mapM_forall₂ hv)
  constructor
  · intro ht
    obtain ⟨i, hi, rfl⟩ := List.getElem_of_mem ht
    obtain ⟨w, hw, e⟩ := Option.map_eq_some_iff.1 (hf.2 i (by rw [hf.1]; exact hi) hi)
    have e' : _ = v[i] := e
    have hm := List.get_mem ((atomicMonomials B).filter fun m => m.all (knowable I)) ⟨i, by rw [hf.1]; exact hi⟩
    rw [← e']
    obtain ⟨hm1, hm2⟩ := List.mem_filter.1 hm
    exact ⟨w, rfl, hm1, hm2, hw⟩
  · rintro ⟨y, h1, h2, h3, h4⟩
    obtain ⟨i, hi, e⟩ := List.getElem_of_mem (List.mem_filter.2 ⟨h2, h3⟩ : t.1 ∈ (atomicMonomials B).filter fun m => m.all (knowable I))
    have hi' : i < v.length := by rw [← hf.1]; exact hi
    obtain ⟨w, hw, e2⟩ := Option.map_eq_some_iff.1 (hf.2 i hi hi')
    have e' : _ = v[i] := e2
    have e1 : ((atomicMonomials B).filter fun m => m.all (knowable I)).get ⟨i, hi⟩ = t.1 := e
    rw [e1] at hw e'
    have : w = y := Option.some.inj (hw.symm.trans h4)
    subst this
    have : v[i] = t := by rw [← e', ← h1]
    rw [← this]
    exact List.getElem_mem hi'

/-- What is known directly after `set_distribution`: one, zero and the atoms the distribution determines. -/
def Given (I : Input) (B : Built) (m : Mon) : Prop := (m ∈ atomicMonomials B ∧ m.all (knowable I) = true) ∨ m = [] ∨ (m = [[0]] ∧ B.env.zero = some [[0]])

theorem marginal_one (P : List Nat → Rat) : momentMarginal I P [] = some 1 := rfl

theorem marginal_zero (P : List Nat → Rat) : momentMarginal I P [[0]] = some 0 := by
  unfold momentMarginal
  have : atomMarginal I P [0] = some 0 := rfl
  simp [this]

theorem zero_eq (hV : Setup I cols ch name B) {z : Mon} (h : B.env.zero = some z) : z = [[0]] := by
  obtain ⟨_, _, _, _, _, _, _, _, _, _, henv⟩ := build_some hV.built
  rw [henv] at h
  dsimp only at h
  split at h
  · exact (Option.some.inj h).symm
  · cases h

theorem assign_const {K : Type} (E : SdpState.Env K) (v : List (K × Option Rat)) (d : Dict Mon Rat) {m : Mon} {x : Rat} (hv : ∀ t ∈ v, E.san t.1 = m → t.2 = some x)
    (h : d.get m = some x ∨ ∃ t ∈ v, E.san t.1 = m) : (SdpState.assignValues E v d).get m = some x := by
  unfold SdpState.assignValues
  induction v generalizing d with
  | nil => 
    rcases h with h | ⟨t, ht, _⟩
    · exact h
    · cases ht
  | cons t v ih =>
    rw [List.foldl_cons]
    apply ih _ fun u hu => hv u (by simp [hu])
    by_cases e : E.san t.1 = m
    · left
      rw [hv t (by simp) e]
      dsimp only
      rw [get_set, if_pos e]
    · rcases h with h | ⟨u, hu, hum⟩
      · left
        split
        · exact h
        · rw [get_set, if_neg e]; exact h
      · rcases List.mem_cons.1 hu with rfl | hu
        · exact absurd hum e
        · exact .inr ⟨u, hu, hum⟩

/-- The values known directly, and nothing else. -/
theorem direct_iff (hV : Setup I cols ch name B) {P : List Nat → Rat} {v : List (Mon × Option Rat)} (hv : distributionValues I B P = some v) (m : Mon) (x : Rat) :
    (direct B.env v).get m = some x ↔ Given I B m ∧ momentMarginal I P m = some x := by
  have hsan : B.env.san = id := by obtain ⟨_, _, _, _, _, _, _, _, _, _, henv⟩ := build_some hV.built; rw [henv]
  have hbase : ∀ m x, Dict.get (((B.env.zero.map fun z => Dict.set ([] : Dict Mon Rat) z 0).getD []).set one 1) m = some x ↔
      (m = [] ∧ x = 1) ∨ (m = [[0]] ∧ B.env.zero = some [[0]] ∧ x = 0) := by
    intro m x
    rw [get_set]
    rcases hz : B.env.zero with _ | z
    · by_cases h : (one : Mon) = m
      · subst h
        simp [one, eq_comm]
      · have h' : m ≠ [] := fun e => h e.symm
        simp [h, h']
    · have := zero_eq hV hz
      subst this
      by_cases h : (one : Mon) = m
      · subst h
        simp [one, eq_comm]
      · have h' : m ≠ [] := fun e => h e.symm
        rw [if_neg h]
        simp only [Option.map_some, Option.getD_some, get_set, State.get_nil]
        by_cases h2 : ([[0]] : Mon) = m
        · subst h2; simp [eq_comm]
        · have h2' : m ≠ [[0]] := fun e => h2 e.symm
          simp [h2, h2', h']
  constructor
  · intro h
    rcases SdpState.assign_get_of B.env v _ m x h with ⟨t, ht, e1, e2⟩ | h1
    · rw [hsan] at e1
      have e1 : t.1 = m := e1
      obtain ⟨y, q1, q2, q3, q4⟩ := (values_iff hv t).1 ht
      rw [e1] at q2 q3 q4
      rw [q1] at e2
      rw [← Option.some.inj e2]
      exact ⟨.inl ⟨q2, q3⟩, q4⟩
    · rcases (hbase m x).1 h1 with ⟨rfl, rfl⟩ | ⟨rfl, hz, rfl⟩
      · exact ⟨.inr (.inl rfl), marginal_one P⟩
      · exact ⟨.inr (.inr ⟨rfl, hz⟩), marginal_zero P⟩
  · rintro ⟨hg, hx⟩
    refine assign_const B.env v _ ?_ ?_
    · intro t ht e
      rw [hsan] at e
      have e : t.1 = m := e
      obtain ⟨y, q1, q2, q3, q4⟩ := (values_iff hv t).1 ht
      rw [e] at q4
      rw [q1, ← q4, hx]
    · rcases hg with ⟨g1, g2⟩ | rfl | ⟨rfl, hz⟩
      · exact .inr ⟨(m, some x), (values_iff hv _).2 ⟨x, rfl, g1, g2, hx⟩, by rw [hsan]; rfl⟩
      · left
        rw [hbase]
        exact .inl ⟨rfl, (Option.some.inj (hx.symm.trans (marginal_one P)))⟩
      · left
        rw [hbase]
        exact .inr ⟨rfl, hz, (Option.some.inj (hx.symm.trans (marginal_zero P)))⟩

theorem given_mono (hch : UsualChoice ch I) (hV₁ : Setup I cols₁ ch name B₁) (hV₂ : Setup I cols₂ ch name B₂) (hsub : ∀ m ∈ cols₁, m ∈ cols₂) {m : Mon} (h : Given I B₁ m) : Given I B₂ m := by
  rcases h with ⟨h1, h2⟩ | h | ⟨h, hz⟩
  · exact .inl ⟨atomics_mono hch hV₁ hV₂ hsub h1, h2⟩
  · exact .inr (.inl h)
  · exact .inr (.inr ⟨h, (zero_iff hch hV₂).1 (moments_mono hch hV₁ hV₂ hsub _ ((zero_iff hch hV₁).2 hz))⟩)

/-- An atom given directly is a single atom which is at most its adjoint. -/
theorem given_least (hch : UsualChoice ch I) (hV : Setup I cols ch name B) {a : Atom} (h : Given I B [a]) :
    (ch.dagger (ch.dagger a) = a) ∧ tupleLe [a] [ch.dagger a] = true := by
  obtain ⟨_, _, _, _, _, _, _, _, _, _, henv⟩ := build_some hV.built
  have hd : B.env.dagger = ch.dagger := by rw [henv]
  rcases h with ⟨h1, _⟩ | h | ⟨h, _⟩
  · have hinv : ch.dagger (ch.dagger a) = a := by
      rcases Linear.atomKey_distribution hV hch h1 with h | ⟨b, hb, h⟩
      · cases h
      · have : a = b := by simpa using hb
        subst this
        rcases h with h | h
        · exact Linear.dagger_dagger hch h.repr
        · rw [hd] at h
          rw [h, h]
    refine ⟨hinv, ?_⟩
    obtain ⟨b, hb, e⟩ := List.mem_map.1 h1
    have hb' := mem_sortBy.1 hb
    rw [mem_dedupB] at hb'
    obtain ⟨n, hn, hbn⟩ := List.mem_flatten.1 hb'
    have hrb : ch.dagger (ch.dagger b) = b := by
      rcases (moments_proper hV hch n hn).atoms with h | h
      · rw [h] at hbn
        rw [List.mem_singleton.1 hbn]
        rw [dagger_zero hch, dagger_zero hch]
      · exact Linear.dagger_dagger hch (h b hbn).repr
    have hsing : ∀ u : Atom, sortBy atomLe [u] = [u] := fun u => List.perm_singleton.1 (sortBy_perm atomLe [u])
    have key : ∀ l : List Atom, l = [b] → (if tupleLe (sortBy atomLe l) (sortBy atomLe ((sortBy atomLe l).map B.env.dagger)) then sortBy atomLe l else sortBy atomLe ((sortBy atomLe l).map B.env.dagger)) = [a] →
        tupleLe [a] [ch.dagger a] = true := by
      rintro l rfl hl
      rw [hsing, List.map_singleton, hsing, hd] at hl
      split at hl
      · rename_i hle
        have : b = a := by simpa using hl
        rw [← this]; exact hle
      · rename_i hle
        have : ch.dagger b = a := by simpa using hl
        rw [← this, hrb]
        rcases tupleLe_total [b] [ch.dagger b] with h | h
        · exact absurd h hle
        · exact h
    unfold SdpState.monFromAtoms at e
    dsimp only at e
    split at e
    · rename_i z hz
      have : z = b := by simpa using List.mem_of_find?_eq_some hz
      exact key _ (by rw [this]) e
    · by_cases hbe : b.isEmpty = true
      · simp [hbe] at e
        split at e <;> simp [sortBy] at e
      · exact key _ (by simp [hbe]) e
  · cases h
  · have : a = [0] := by simpa using h
    subst this
    rw [dagger_zero hch, dagger_zero hch]
    exact ⟨rfl, by decide⟩

end Verif.Hierarchy
