import Verif.Marginal.Lemmas
import Mathlib.Algebra.Ring.Int.Defs
/-
C22 marginals, C23 no-signalling.
-/
namespace Verif.Marginal
open Verif.Scenario (ndindex mem_ndindex)

variable {R : Type*} [AddCommMonoid R] [One R]

theorem computeMarginal_eq {outs ins : List Nat} (hn : ins.length = outs.length) (P : List Nat → R) {atom : List Row} (h : GoodAtom outs atom) (hne : atom ≠ []) :
    computeMarginal outs ins P atom = marginal outs P atom (inputList outs.length atom) := by
  unfold computeMarginal
  have : atom.isEmpty = false := by simpa using hne
  rw [this]
  simp only [Bool.false_eq_true, if_false]
  have := sumAxes_atom outs ins 0 atom P (inputList outs.length atom) (by rw [inputList_length, hn]) h.sorted
    (fun t ht => by have := h.pos t ht; omega) (fun t ht => by have := h.le t ht; omega) (fun t ht => by simpa using h.outcome t ht)
  rw [this, marginal, sum_filter]
  rfl

/-- **C22.** For an event in which every party occurs at most once (in party order, as canonical forms of commuting operators are), the computed value is the sum of
the given array over all joint outcomes that agree with the event, the settings being those of the event and 0 for the other parties. -/
theorem C22_marginal_correct (outs ins : List Nat) (hn : ins.length = outs.length) (P : List Nat → R) (atom : List Row) (h : GoodAtom outs atom)
    (hne : atom ≠ []) (settings : List Nat) (hs : SettingsOf outs.length atom settings)
    (h0 : ∀ p < outs.length, (∀ t ∈ atom, t.party ≠ p + 1) → settings[p]? = some 0) :
    computeMarginal outs ins P atom = marginal outs P atom settings := by
  rw [computeMarginal_eq hn P h hne]
  congr 1
  apply List.ext_getElem?
  intro q
  rw [inputList_getElem? h.sorted h.pos]
  split
  · rename_i hq
    rcases hf : atom.find? (fun t => t.party - 1 == q) with _ | t
    · rw [List.find?_eq_none] at hf
      rw [h0 q hq, List.find?_eq_none.2 hf]
      · rfl
      · intro t ht e
        apply hf t ht
        simp [e]
    · have h1 := List.find?_some hf
      have h2 := List.mem_of_find?_eq_some hf
      simp only [beq_iff_eq] at h1
      rw [hf, ← h1, hs.2 t h2]
      rfl
  · rw [List.getElem?_eq_none]
    have := hs.1
    omega

/-- **C22**, empty event. -/
theorem C22_empty (outs ins : List Nat) (P : List Nat → R) : computeMarginal outs ins P [] = 1 := rfl

/-- The order of the rows matters: with the parties exchanged, the outcomes are swapped. -/
theorem C22_order_matters :
    let P : List Nat → Int := fun t => if t = [0, 1, 0, 0] then 1 else 0
    computeMarginal [2, 2] [1, 1] P [⟨1, 0, 0⟩, ⟨2, 0, 1⟩] = 1 ∧ computeMarginal [2, 2] [1, 1] P [⟨2, 0, 1⟩, ⟨1, 0, 0⟩] = 0 := by
  decide

/-! ## C23 -/

theorem set_mem_ndindex {dims x : List Nat} {p y e : Nat} (hx : x ∈ ndindex dims) (hp : dims[p]? = some e) (hy : y < e) : x.set p y ∈ ndindex dims := by
  rw [mem_ndindex] at hx ⊢
  refine ⟨by simp [hx.1], ?_⟩
  intro s h h'
  rw [List.getElem_set]
  split
  · rename_i hps
    subst hps
    obtain ⟨_, rfl⟩ := List.getElem?_eq_some_iff.1 hp
    exact hy
  · exact hx.2 s h (by simpa using h')

omit [One R] in
theorem marginal_step {outs ins : List Nat} {P : List Nat → R} (hP : NoSignalling outs ins P) {atom : List Row} (hpos : ∀ t ∈ atom, 1 ≤ t.party)
    {p d e y : Nat} (hd : outs[p]? = some d) (he : ins[p]? = some e) (hp : ∀ t ∈ atom, t.party ≠ p + 1) {x : List Nat} (hx : x ∈ ndindex ins) (hy : y < e) :
    marginal outs P atom x = marginal outs P atom (x.set p y) := by
  unfold marginal
  rw [sum_filter, sum_filter, sum_ndindex_split outs p d hd, sum_ndindex_split outs p d hd]
  congr 1
  apply List.map_congr_left
  intro b hb
  have hag : ∀ i, Agrees atom (b.set p i) ↔ Agrees atom b := by
    intro i
    unfold Agrees
    apply forall_congr'
    intro t
    apply imp_congr_right
    intro ht
    have h1 := hpos t ht
    have h2 := hp t ht
    rw [List.getElem?_set_ne (by omega)]
  simp only [hag]
  by_cases h : Agrees atom b
  · simp only [h, if_true]
    rcases Nat.eq_zero_or_pos d with rfl | hpos
    · simp
    · apply hP p d e hd he b _ x hx y hy
      rw [mem_ndindex] at hb ⊢
      refine ⟨by simpa using hb.1, ?_⟩
      intro s h h'
      have := hb.2 s (by simpa using h) h'
      rw [List.getElem_set] at this
      split at this
      · rename_i hps
        subst hps
        obtain ⟨_, rfl⟩ := List.getElem?_eq_some_iff.1 hd
        omega
      · exact this
  · simp only [h, if_false]

omit [One R] in
/-- **C23, settings.** For a no-signalling distribution the marginal of an event is the same for all choices of the settings of the parties that do
not occur in it. -/
theorem C23_settings_irrelevant (outs ins : List Nat) (hn : ins.length = outs.length) (P : List Nat → R) (hP : NoSignalling outs ins P) (atom : List Row)
    (hpos : ∀ t ∈ atom, 1 ≤ t.party) (s s' : List Nat) (hs : s ∈ ndindex ins) (hs' : s' ∈ ndindex ins)
    (h : SettingsOf outs.length atom s) (h' : SettingsOf outs.length atom s') : marginal outs P atom s = marginal outs P atom s' := by
  have key : ∀ k ≤ outs.length, ∃ z ∈ ndindex ins, (∀ q, z[q]? = if q < k then s'[q]? else s[q]?) ∧ marginal outs P atom s = marginal outs P atom z := by
    intro k
    induction k with
    | zero => intro _; exact ⟨s, hs, by simp, rfl⟩
    | succ k ih =>
      intro hk
      obtain ⟨z, hz, hzq, e⟩ := ih (by omega)
      have hk' : k < s'.length := by rw [h'.1]; omega
      have hke : k < ins.length := by omega
      have hko : k < outs.length := by omega
      have hlt : s'[k] < ins[k] := (mem_ndindex.1 hs').2 k hke hk'
      have hzk : k < z.length := by rw [(mem_ndindex.1 hz).1]; omega
      refine ⟨z.set k s'[k], set_mem_ndindex hz (List.getElem?_eq_getElem hke) hlt, ?_, ?_⟩
      · intro q
        rw [List.getElem?_set]
        split
        · rename_i hq
          subst hq
          rw [if_pos (by omega), List.getElem?_eq_getElem hk']
        · rename_i hq
          rw [hzq]
          by_cases h1 : q < k
          · rw [if_pos h1, if_pos (by omega)]
          · rw [if_neg h1, if_neg (by omega)]
      · rw [e]
        by_cases hp : ∀ t ∈ atom, t.party ≠ k + 1
        · exact marginal_step hP hpos (List.getElem?_eq_getElem hko) (List.getElem?_eq_getElem hke) hp hz hlt
        · push Not at hp
          obtain ⟨t, ht, e1⟩ := hp
          have h1 := h.2 t ht
          have h2 := h'.2 t ht
          have e2 : t.party - 1 = k := by omega
          rw [e2] at h1 h2
          have h3 : z[k]? = s'[k]? := by rw [hzq, if_neg (by omega), h1, h2]
          have : z.set k s'[k] = z := by
            apply List.ext_getElem?
            intro q
            rw [List.getElem?_set]
            split
            · rename_i hq
              subst hq
              rw [h3, List.getElem?_eq_getElem hk']
            · rfl
          rw [this]
  obtain ⟨z, hz, hzq, e⟩ := key outs.length (Nat.le_refl _)
  have : z = s' := by
    apply List.ext_getElem?
    intro q
    rw [hzq]
    split
    · rfl
    · rename_i hq
      rw [List.getElem?_eq_none (by rw [h.1]; omega), List.getElem?_eq_none (by rw [h'.1]; omega)]
  rw [e, this]

theorem inputList_mem {outs ins : List Nat} (hn : ins.length = outs.length) {atom : List Row} (h : GoodAtom outs atom) (hs : GoodSettings ins atom) :
    inputList outs.length atom ∈ ndindex ins := by
  rw [mem_ndindex]
  refine ⟨by rw [inputList_length, hn], ?_⟩
  intro q hq hq'
  have h1 := inputList_getElem? (n := outs.length) h.sorted h.pos q
  rw [if_pos (by omega), List.getElem?_eq_getElem hq'] at h1
  simp only [Option.some.injEq] at h1
  rw [h1]
  rcases hf : atom.find? (fun t => t.party - 1 == q) with _ | t
  · rw [hf]
    exact hs.pos _ (List.getElem_mem _)
  · have h2 := List.find?_some hf
    have h3 := List.mem_of_find?_eq_some hf
    simp only [beq_iff_eq] at h2
    obtain ⟨e, h4, h5⟩ := hs.setting t h3
    rw [h2, List.getElem?_eq_getElem hq] at h4
    simp only [Option.some.injEq] at h4
    rw [h4, hf]
    exact h5

/-- **C23, value.** Hence the computed value is the marginal for every choice of the absent parties' settings. -/
theorem C23_value_any_settings (outs ins : List Nat) (hn : ins.length = outs.length) (P : List Nat → R) (hP : NoSignalling outs ins P) (atom : List Row)
    (h : GoodAtom outs atom) (hg : GoodSettings ins atom) (hne : atom ≠ []) (s : List Nat) (hs : s ∈ ndindex ins) (hso : SettingsOf outs.length atom s) :
    computeMarginal outs ins P atom = marginal outs P atom s := by
  rw [computeMarginal_eq hn P h hne]
  exact C23_settings_irrelevant outs ins hn P hP atom h.pos _ s (inputList_mem hn h hg) hs (inputList_settingsOf h) hso

theorem good_sub {outs ins : List Nat} {l1 l2 : List Row} {t : Row} (h : GoodAtom outs (l1 ++ t :: l2)) (hg : GoodSettings ins (l1 ++ t :: l2)) :
    GoodAtom outs (l1 ++ l2) ∧ GoodSettings ins (l1 ++ l2) := by
  have hsub : (l1 ++ l2).Sublist (l1 ++ t :: l2) := (List.Sublist.refl l1).append (List.sublist_cons_self t l2)
  exact ⟨⟨h.sorted.sublist hsub, fun x hx => h.pos x (hsub.subset hx), fun x hx => h.le x (hsub.subset hx), fun x hx => h.outcome x (hsub.subset hx)⟩,
    ⟨hg.pos, fun x hx => hg.setting x (hsub.subset hx)⟩⟩

/-- **C23, consistency and normalisation.** For a normalised no-signalling distribution, summing the values of an event over the outcomes of one of its parties gives the value
of the event without that party (1 for the empty event). -/
theorem C23_sum_over_party (outs ins : List Nat) (hn : ins.length = outs.length) (P : List Nat → R) (hP : NoSignalling outs ins P)
    (hnorm : Normalised outs ins P) (l1 l2 : List Row) (p x d : Nat) (hd : outs[p - 1]? = some d) (hdpos : 0 < d)
    (h : ∀ o < d, GoodAtom outs (l1 ++ ⟨p, x, o⟩ :: l2) ∧ GoodSettings ins (l1 ++ ⟨p, x, o⟩ :: l2)) :
    ((List.range d).map fun o => computeMarginal outs ins P (l1 ++ ⟨p, x, o⟩ :: l2)).sum = computeMarginal outs ins P (l1 ++ l2) := by
  obtain ⟨h0, hg0⟩ := h 0 hdpos
  obtain ⟨hs, hgs⟩ := good_sub h0 hg0
  let s := inputList outs.length (l1 ++ ⟨p, x, 0⟩ :: l2)
  have hsm : s ∈ ndindex ins := inputList_mem hn h0 hg0
  have hso := inputList_settingsOf h0
  have hsos : SettingsOf outs.length (l1 ++ l2) s := by
    refine ⟨hso.1, fun t ht => hso.2 t ?_⟩
    simp only [List.mem_append, List.mem_cons] at ht ⊢
    rcases ht with ht | ht <;> simp [ht]
  have e1 : ((List.range d).map fun o => computeMarginal outs ins P (l1 ++ ⟨p, x, o⟩ :: l2)).sum =
      ((List.range d).map fun o => marginal outs P (l1 ++ ⟨p, x, o⟩ :: l2) s).sum := by
    congr 1
    apply List.map_congr_left
    intro o ho
    obtain ⟨h1, h2⟩ := h o (List.mem_range.1 ho)
    refine C23_value_any_settings outs ins hn P hP _ h1 h2 (by simp) s hsm ⟨hso.1, ?_⟩
    intro t ht
    simp only [List.mem_append, List.mem_cons] at ht
    rcases ht with ht | rfl | ht
    · exact hso.2 t (by simp [ht])
    · exact hso.2 ⟨p, x, 0⟩ (by simp)
    · exact hso.2 t (by simp [ht])
  have e2 : ((List.range d).map fun o => marginal outs P (l1 ++ ⟨p, x, o⟩ :: l2) s).sum = marginal outs P (l1 ++ l2) s := by
    unfold marginal
    simp only [sum_filter]
    rw [sum_comm']
    congr 1
    apply List.map_congr_left
    intro a ha
    have hag : ∀ o, Agrees (l1 ++ ⟨p, x, o⟩ :: l2) a ↔ (Agrees (l1 ++ l2) a ∧ a[p - 1]? = some o) := by
      intro o
      unfold Agrees
      constructor
      · intro hA
        refine ⟨fun t ht => hA t ?_, hA ⟨p, x, o⟩ (by simp)⟩
        simp only [List.mem_append, List.mem_cons] at ht ⊢
        rcases ht with ht | ht <;> simp [ht]
      · rintro ⟨hA, hB⟩ t ht
        simp only [List.mem_append, List.mem_cons] at ht
        rcases ht with ht | rfl | ht
        · exact hA t (by simp [ht])
        · exact hB
        · exact hA t (by simp [ht])
    rw [mem_ndindex] at ha
    have hlt : p - 1 < outs.length := (List.getElem?_eq_some_iff.1 hd).1
    have hlta : p - 1 < a.length := by omega
    have hval : a[p - 1] < d := by
      have := ha.2 (p - 1) hlt hlta
      obtain ⟨_, e⟩ := List.getElem?_eq_some_iff.1 hd
      rwa [e] at this
    by_cases hA : Agrees (l1 ++ l2) a
    · simp only [hag, hA, true_and, if_true, List.getElem?_eq_getElem hlta, Option.some.injEq]
      refine Eq.trans (congrArg List.sum (List.map_congr_left fun i _ => ?_)) (sum_range_single d a[p - 1] hval (fun _ => P (a ++ s)))
      by_cases hi : i = a[p - 1]
      · simp [hi]
      · rw [if_neg hi, if_neg (fun e => hi e.symm)]
    · simp only [hag, hA, false_and, if_false, sum_zero]
  rw [e1, e2]
  by_cases hne : l1 ++ l2 = []
  · rw [hne]
    unfold marginal
    have : ((ndindex outs).filter fun a => decide (Agrees [] a)) = ndindex outs := by
      rw [List.filter_eq_self]
      intro a _
      simp [Agrees]
    rw [this]
    exact hnorm s hsm
  · exact (C23_value_any_settings outs ins hn P hP _ hs hgs hne s hsm hsos).symm

/-! Non-vacuity: a no-signalling box of two parties with two settings and outcomes (outcomes equal unless both settings are 1), scaled by two. -/
def prBox (t : List Nat) : Int :=
  match t with
  | [a, b, x, y] => if (a + b) % 2 = x * y then 1 else 0
  | _ => 0
example : NoSignalling [2, 2] [2, 2] prBox := by
  have : ∀ p ∈ List.range 2, ∀ a ∈ ndindex [2, 2], ∀ x ∈ ndindex [2, 2], ∀ y ∈ List.range 2,
    ((List.range 2).map fun i => prBox (a.set p i ++ x)).sum = ((List.range 2).map fun i => prBox (a.set p i ++ x.set p y)).sum := by decide
  intro p d e hd he a ha x hx y hy
  have hp : p < 2 := (List.getElem?_eq_some_iff.1 hd).1
  have hd2 : d = 2 ∧ e = 2 := by
    rcases p with _ | _ | p
    · simp at hd he; omega
    · simp at hd he; omega
    · omega
  rw [hd2.1]
  exact this p (List.mem_range.2 hp) a ha x hx y (List.mem_range.2 (by omega))
example : ∀ o < 2, GoodAtom [2, 2] [⟨1, 1, 0⟩, ⟨2, 1, o⟩] := by
  intro o ho
  refine ⟨by simp, by simp, by simp, ?_⟩
  intro t ht
  simp only [List.mem_cons, List.not_mem_nil, or_false] at ht
  rcases ht with rfl | rfl
  · exact ⟨2, rfl, by simp⟩
  · exact ⟨2, rfl, ho⟩
example : ∀ x ∈ ndindex [2, 2], ((ndindex [2, 2]).map fun a => prBox (a ++ x)).sum = 2 := by decide
example : computeMarginal [2, 2] [2, 2] prBox [⟨2, 1, 0⟩] = 1 ∧ computeMarginal [2, 2] [2, 2] prBox [⟨1, 1, 0⟩, ⟨2, 1, 1⟩] = 1 := by decide
/-- normalised: the deterministic box with all outcomes 0 -/
example : Normalised [2, 2] [2, 2] (fun t => if t.take 2 = [0, 0] then (1 : Int) else 0) := by
  unfold Normalised; decide

end Verif.Marginal
