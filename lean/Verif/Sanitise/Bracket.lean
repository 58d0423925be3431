import Verif.Sanitise.Props
import Verif.Names.Legacy
/-!
C60: bracketed lists of operator names.
-/
namespace Verif.Sanitise
open Verif.Common Verif.Scenario Verif.Orbits Verif.Components Verif.Moment Verif.State Verif.Text Verif.Names Verif.EndToEnd

variable {I : Input} {names order : List Str}

theorem legacyText_noEq (h : NamesOk I names) (a : Atom) : '=' ∉ legacyText I names a := by
  have hn : ∀ k, '=' ∉ names.getD k [] := by
    intro k
    by_cases hk : k < names.length
    · rw [List.getD_eq_getElem _ _ hk]
      exact h.avoid _ (List.getElem_mem hk) '=' (by decide)
    · rw [List.getD_eq_default _ _ (by omega)]; simp
  have hd : ∀ l, '=' ∉ divided l := by
    intro l hl
    rcases mem_divided hl with hd | hd
    · exact absurd hd (not_digit (by simp))
    · exact absurd hd (by decide)
  unfold legacyText
  split
  · unfold rawName
    intro hc
    simp only [List.cons_append, List.mem_cons, List.mem_append, List.mem_flatten, List.mem_map, List.not_mem_nil, or_false] at hc
    rcases hc with hc | hc | hc
    · exact absurd hc (by decide)
    · rcases hc with hc | hc
      · rcases hc with hc | hc
        · obtain ⟨l, ⟨r, -, rfl⟩, hc⟩ := hc
          exact hn _ hc
        · rcases hc with hc | hc
          · exact absurd hc (by decide)
          · exact hd _ hc
      · rcases hc with hc | hc
        · exact absurd hc (by decide)
        · exact hd _ hc
    · exact absurd hc (by decide)
  · intro hc
    rw [List.cons_append, List.mem_cons, List.mem_append] at hc
    rcases hc with hc | hc | hc
    · exact absurd hc (by decide)
    · rcases mem_joinStr hc with hc | ⟨w, hw, hc⟩
      · exact absurd hc (by decide)
      · obtain ⟨op, hop, rfl⟩ := List.mem_map.1 hw
        have hv : Valid I.scenario op := by
          obtain ⟨r, -, hr⟩ := List.mem_filterMap.1 hop
          exact (mem_lexorder I.scenario).1 (List.mem_of_getElem? hr)
        obtain ⟨i, t, hi, hI⟩ := interpret_some h.fits hv
        unfold legacyName at hc
        rw [hi] at hc
        simp only [Option.map_some, Option.getD_some] at hc
        rw [oldName_eq, oldWith] at hc
        simp only [List.mem_append, List.mem_cons] at hc
        rcases hc with hc | hc | hc | hc | hc | hc | hc
        · rw [hI.party] at hc; exact hn _ hc
        · exact absurd hc (by decide)
        · rcases mem_joinNat hc with hd | hd
          · exact absurd hd (not_digit (by simp))
          · exact absurd hd (by decide)
        · exact absurd hc (by decide)
        · split at hc
          · exact absurd hc (by decide)
          · exact not_mem_natStr _ _ (by decide) hc
        · exact absurd hc (by decide)
        · exact not_mem_natStr _ _ (by decide) hc
    · exact absurd hc (by decide)

theorem joinChars_noEq {l : List Str} (h : ∀ x ∈ l, '=' ∉ x) : '=' ∉ joinChars l := by
  rw [joinChars_eq]
  split
  · decide
  · intro hc
    rcases mem_joinStr hc with hc | ⟨w, hw, hc⟩
    · exact absurd hc (by decide)
    · obtain ⟨t, ht, rfl⟩ := List.mem_map.1 hw
      obtain ⟨a, ha, rfl⟩ := List.mem_map.1 ht
      have hx := h a (mem_dedupB.1 ha)
      unfold powerText at hc
      split at hc
      · rcases List.mem_append.1 hc with hc | hc
        · exact hx hc
        · rcases List.mem_cons.1 hc with hc | hc
          · exact absurd hc (by decide)
          · exact not_mem_natStr _ _ (by decide) hc
      · exact hx hc

theorem momentLegacy_noEq (h : NamesOk I names) (m : Mon) : '=' ∉ momentLegacy I names m :=
  joinChars_noEq fun x hx => by
    obtain ⟨a, -, rfl⟩ := List.mem_map.1 hx
    exact legacyText_noEq h a

theorem get_foldl_none {α : Type} (f : α → Str) (g : α → Str) (l : List α) (t : Str) : ∀ d : Dict Str α, Dict.get d t = none → (∀ a ∈ l, f a ≠ t ∧ g a ≠ t) →
    Dict.get (l.foldl (fun d a => (d.set (f a) a).set (g a) a) d) t = none := by
  induction l with
  | nil => intro d hd _; exact hd
  | cons a l ih =>
    intro d hd h
    rw [List.foldl_cons]
    apply ih
    · obtain ⟨h1, h2⟩ := h a (List.mem_cons_self ..)
      rw [State.get_set, State.get_set, if_neg h2, if_neg h1]
      exact hd
    · exact fun b hb => h b (List.mem_cons_of_mem _ hb)

/-- The names of operators, separated by spaces and put between angle brackets, denote the moment of these operators. -/
theorem C60_bracket_name_reads_as_ranks (hI : I.Accepted) (h : NamesOk I names) (ho : ∀ p, p ∈ order ↔ p ∈ toKill) {s : Session} (hr : Reachable I names order s)
    (w : List Nat) (ns : List Str) (hne : w ≠ []) (hns : List.Forall₂ (fun k n => ∃ a, I.scenario.lexorder[k]? = some a ∧ displayName I.scenario (naming I names) a = some n) w ns) :
    sanitise I names order s (.name ('<' :: joinStr ' ' ns ++ ['>'])) = sanitise I names order s (.array1 w) := by
  obtain ⟨⟨d, hd, hread⟩, -⟩ := C40_bracket_name_reads_back h.fits (h.avoids _ (by decide)) (fun p _ => parents_lt p) order ho w ns hne hns
  have hchars : ∀ n ∈ ns, '*' ∉ n ∧ '=' ∈ n := by
    intro n hn
    obtain ⟨k, -, a, hk, hd⟩ : ∃ k ∈ w, ∃ a, I.scenario.lexorder[k]? = some a ∧ displayName I.scenario (naming I names) a = some n := forall2_mem_right hns hn
    have hv : Valid I.scenario a := (mem_lexorder I.scenario).1 (List.mem_of_getElem? hk)
    obtain ⟨i, t, hi, hIn⟩ := interpret_some h.fits hv
    unfold displayName at hd
    rw [hi] at hd
    have hd : opName (anyInflation I.scenario) i = n := Option.some.inj hd
    constructor
    · intro hc
      rw [← hd] at hc
      rcases mem_opName h.fits hv (fun q hq => parents_lt _ q hq) hIn hc with ⟨m, hm, hc⟩ | hc | hc
      · exact h.avoid m hm '*' (by decide) hc
      · exact absurd hc (not_digit (by simp))
      · revert hc; decide
    · rw [← hd]
      unfold opName
      simp
  have hnsne : ns ≠ [] := by
    rintro rfl
    cases hns
    exact hne rfl
  have hstar : '*' ∉ '<' :: joinStr ' ' ns ++ ['>'] := by
    intro hc
    rw [List.cons_append, List.mem_cons, List.mem_append] at hc
    rcases hc with hc | hc | hc
    · exact absurd hc (by decide)
    · rcases mem_joinStr hc with hc | ⟨n, hn, hc⟩
      · exact absurd hc (by decide)
      · exact (hchars n hn).1 hc
    · exact absurd hc (by decide)
  have heq : '=' ∈ '<' :: joinStr ' ' ns ++ ['>'] := by
    obtain ⟨n, ns', rfl⟩ := List.exists_cons_of_ne_nil hnsne
    have := (hchars n (List.mem_cons_self ..)).2
    cases ns' with
    | nil => simp [joinStr, this]
    | cons n' ns' => simp [joinStr, this]
  have hnone : Dict.get s.table ('<' :: joinStr ' ' ns ++ ['>']) = none := by
    rcases hg : Dict.get s.table ('<' :: joinStr ' ' ns ++ ['>']) with _ | m
    · rfl
    · exfalso
      rcases (reachable_inv hI h hr).1.keys _ _ hg with e | e | ⟨m', e | e⟩
      · rw [List.cons_append] at e
        exact absurd (List.cons.inj e).1 (by decide)
      · rw [List.cons_append] at e
        exact absurd (List.cons.inj e).1 (by decide)
      · by_cases hm : m' = []
        · rw [hm, momentText_nil, List.cons_append] at e
          exact absurd (List.cons.inj e).1 (by decide)
        · obtain ⟨t, ht⟩ := momentText_head h hm
          rw [ht, List.cons_append] at e
          exact absurd (List.cons.inj e).1 (by decide)
      · rw [e] at heq
        exact momentLegacy_noEq h m' heq
  have hatom : Dict.get (atomFromName I names) ('<' :: joinStr ' ' ns ++ ['>']) = none := by
    unfold atomFromName
    apply get_foldl_none
    · rfl
    · intro a _
      constructor
      · intro e
        obtain ⟨t, et, -⟩ := atomText_form h a
        rw [et, List.cons_append] at e
        exact absurd (List.cons.inj e).1 (by decide)
      · intro e
        rw [← e] at heq
        exact legacyText_noEq h a heq
  obtain ⟨rows, hrows⟩ : ∃ rows : List Op, List.Forall₂ (fun r op => I.scenario.lexorder[r]? = some op) w rows := by
    clear hread hnone hatom hne hnsne hstar heq hchars
    induction hns with
    | nil => exact ⟨[], .nil⟩
    | cons h _ ih =>
      obtain ⟨rows, hrows⟩ := ih
      obtain ⟨a, ha, -⟩ := h
      exact ⟨a :: rows, .cons ha hrows⟩
  have hmap : (w.mapM fun r => I.scenario.lexorder[r]?) = some rows := by
    clear hread hnone hatom hne hnsne hstar heq hchars hns
    induction hrows with
    | nil => rfl
    | cons h _ ih => rw [List.mapM_cons, h, ih]; rfl
  have hinterp : interpretName I names order ('<' :: joinStr ' ' ns ++ ['>']) = some rows := by
    unfold interpretName
    have hsp : splitAt '*' ('<' :: joinStr ' ' ns ++ ['>']) = ['<' :: joinStr ' ' ns ++ ['>']] := by
      have := splitAt_joinStr '*' ['<' :: joinStr ' ' ns ++ ['>']] (by simp) (by simpa using hstar)
      simpa [joinStr] using this
    rw [hsp, List.mapM_cons, List.mapM_nil]
    have : interpretFactor I names order ('<' :: joinStr ' ' ns ++ ['>']) = some rows := by
      unfold interpretFactor
      rw [hatom]
      simp only
      rw [hd]
      show (interpretAtomic d order ('<' :: joinStr ' ' ns ++ ['>'])).bind _ = _
      rw [hread]
      exact hmap
    rw [this]
    simp
  simp only [sanitise]
  rw [hnone]
  simp only
  rw [hinterp]
  exact readRows_eq hrows

end Verif.Sanitise
