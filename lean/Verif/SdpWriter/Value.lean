import Verif.SdpWriter.Core
/-
The cost vector, the translation of assignments, and the equivalence of the file's program with the problem.
-/
namespace Verif.SdpWriter
open Verif.Text Verif.State Verif.SdpSolver Verif.Common

set_option linter.unusedSectionVars false

variable {K : Type} {n : Nat} [Field K] [LinearOrder K]

/-- `Σ cₖ xₖ` with numbering from `s`. -/
def dot (x : Nat → K) : Nat → List K → K
  | _, [] => 0
  | s, c :: l => c * x s + dot x (s + 1) l

theorem dot_eq (x : Nat → K) (l : List K) (s : Nat) : (l.mapIdx fun k c => c * x (k + s)).sum = dot x s l := by
  induction l generalizing s with
  | nil => rfl
  | cons c l ih =>
    rw [List.mapIdx_cons, List.sum_cons, dot, ← ih (s + 1), Nat.zero_add]
    congr 2
    apply congrArg (fun g => List.mapIdx g l)
    funext k c
    rw [show k + 1 + s = k + (s + 1) by omega]

theorem dot_set (x : Nat → K) (l : List K) (s i : Nat) (c : K) (h : l[i]? = some 0) : dot x s (l.set i c) = dot x s l + c * x (i + s) := by
  induction l generalizing s i with
  | nil => simp at h
  | cons a l ih =>
    cases i with
    | zero =>
      simp only [List.getElem?_cons_zero, Option.some.injEq] at h
      simp only [List.set_cons_zero, dot, h, Nat.zero_add]
      ring
    | succ i =>
      rw [List.getElem?_cons_succ] at h
      simp only [List.set_cons_succ, dot, ih (s + 1) i h]
      rw [show i + (s + 1) = i + 1 + s by omega]
      ring

theorem dot_replicate (x : Nat → K) (m s : Nat) : dot x s (List.replicate m 0) = 0 := by
  induction m generalizing s with
  | zero => rfl
  | succ m ih => rw [List.replicate_succ, dot, ih, zero_mul, zero_add]

/-- The step of the loop over the objective. -/
def objStep (vc : Dict Nat Nat) (acc : Option (List K)) (t : Nat × K) : Option (List K) :=
  acc.bind fun l => if t.1 = 1 then some l else (vc.get t.1).bind fun a => if a - 1 < l.length then some (l.set (a - 1) t.2) else none

theorem objFold_none (vc : Dict Nat Nat) (d : Dict Nat K) : d.foldl (objStep vc) none = none := by
  induction d with
  | nil => rfl
  | cons t d ih => exact ih

theorem objFold (p : Prob K n) (x v : Nat → K) (hx : ∀ k a, (matrixPart p).vc.get k = some a → x a = v k) (d : Dict Nat K) (hd : d.keys.Nodup)
    (l l' : List K) (h0 : ∀ t ∈ d, ∀ a, (matrixPart p).vc.get t.1 = some a → a - 1 < l.length → l[a - 1]? = some 0)
    (h : d.foldl (objStep (matrixPart p).vc) (some l) = some l') :
    l'.length = l.length ∧ dot x 1 l' = dot x 1 l + lin (d.filter fun t => !(decide (t.1 = 1))) v := by
  induction d generalizing l with
  | nil =>
    cases h
    simp [lin]
  | cons t d ih =>
    simp only [Dict.keys, List.map_cons, List.nodup_cons] at hd
    rw [List.foldl_cons] at h
    by_cases h1 : t.1 = 1
    · have e : objStep (matrixPart p).vc (some l) t = some l := by simp [objStep, h1]
      rw [e] at h
      rw [List.filter_cons_of_neg (by simp [h1])]
      exact ih hd.2 l (fun t' ht' => h0 t' (by simp [ht'])) h
    · rcases ha : (matrixPart p).vc.get t.1 with _ | a
      · have e : objStep (matrixPart p).vc (some l) t = none := by simp [objStep, h1, ha]
        rw [e, objFold_none] at h
        cases h
      · by_cases hlen : a - 1 < l.length
        · have e : objStep (matrixPart p).vc (some l) t = some (l.set (a - 1) t.2) := by simp [objStep, h1, ha, hlen]
          rw [e] at h
          have hN := (matrix_spec p).1
          obtain ⟨g1, g2⟩ := ih hd.2 (l.set (a - 1) t.2) (by
            intro t' ht' a' ha' hl'
            have hne : a ≠ a' := by
              rintro rfl
              have : t.1 = t'.1 := hN.inj _ _ _ ha ha'
              exact hd.1 (this ▸ List.mem_map_of_mem ht')
            have b1 := (hN.le _ _ ha).1
            have b2 := (hN.le _ _ ha').1
            rw [List.getElem?_set_ne (by omega)]
            exact h0 t' (by simp [ht']) a' ha' (by simpa using hl')) h
          refine ⟨by rw [g1, List.length_set], ?_⟩
          rw [g2, dot_set x l 1 (a - 1) t.2 (h0 t (by simp) a ha hlen), List.filter_cons_of_pos (by simp [h1])]
          have b1 := (hN.le _ _ ha).1
          rw [show a - 1 + 1 = a by omega, hx _ _ ha]
          simp only [lin, List.map_cons, List.sum_cons]
          ring
        · have e : objStep (matrixPart p).vc (some l) t = none := by simp [objStep, h1, ha, hlen]
          rw [e, objFold_none] at h
          cases h

theorem lin_without_one (d : Dict Nat K) (hd : d.keys.Nodup) (c : K) (hc : d.get 1 = some c) (v : Nat → K) (h1 : v 1 = 1) :
    lin d v = lin (d.filter fun t => !(decide (t.1 = 1))) v + c := by
  induction d with
  | nil => cases hc
  | cons t d ih =>
    obtain ⟨a, b⟩ := t
    simp only [Dict.keys, List.map_cons, List.nodup_cons] at hd
    rw [get_cons] at hc
    by_cases e : a = 1
    · subst e
      simp only [if_true, Option.some.injEq] at hc
      subst hc
      rw [List.filter_cons_of_neg (by simp)]
      have : d.filter (fun t => !(decide (t.1 = 1))) = d := by
        rw [List.filter_eq_self]
        intro t ht
        simp only [Bool.not_eq_true', decide_eq_false_iff_not]
        rintro rfl'
        exact hd.1 (rfl' ▸ List.mem_map_of_mem ht)
      rw [this]
      simp only [lin, List.map_cons, List.sum_cons, h1]
      ring
    · simp only [e, if_false] at hc
      rw [List.filter_cons_of_pos (by simp [e])]
      have := ih hd.2 hc
      simp only [lin, List.map_cons, List.sum_cons] at this ⊢
      rw [this]
      ring

/-- The cost of the file is the objective without its constant. -/
theorem value_eq {tol : K} {p : Prob K n} {f : File K} (P : Parts tol p f) (hp : p.Ok) (x v : Nat → K) (h : Agree p x v) :
    f.prog.value x = lin p.objective v - f.constant ∧ f.prog.cost.length = f.prog.nvars := by
  have ho := P.obj
  unfold objVec at ho
  split at ho
  · cases ho
  · have h0 : ∀ t ∈ p.objective, ∀ a, (matrixPart p).vc.get t.1 = some a → a - 1 < (List.replicate (nvars p).toNat (0 : K)).length →
        (List.replicate (nvars p).toNat (0 : K))[a - 1]? = some 0 := by
      intro t _ a _ hl
      rw [List.getElem?_replicate, if_pos (by simpa using hl)]
    obtain ⟨g1, g2⟩ := objFold p x v h.num p.objective hp.objective _ _ h0 ho
    constructor
    · have e1 : f.prog.value x = dot x 1 f.objective := dot_eq x f.objective 1
      rw [e1, g2, dot_replicate, zero_add, lin_without_one p.objective hp.objective f.constant P.constant v h.one]
      ring
    · show f.objective.length = f.nvars
      rw [g1, List.length_replicate, P.nv]

/-- The values of the moments given by values of the variables. -/
def valOf (p : Prob K n) (x : Nat → K) (k : Nat) : K := match (matrixPart p).vc.get k with
  | some a => x a
  | none => 0

def momOf (p : Prob K n) (x : Nat → K) (k : Nat) : K :=
  if k = 0 then 0 else if k = 1 then 1 else match p.known.get k with
    | some q => q
    | none => match p.semi.get k with
      | some s => s.1 * valOf p x s.2
      | none => valOf p x k

theorem momOf_unknown (p : Prob K n) (x : Nat → K) (k : Nat) (h2 : 2 ≤ k) (hk : p.known.get k = none) (hs : p.semi.get k = none) :
    momOf p x k = valOf p x k := by
  unfold momOf
  rw [if_neg (by omega), if_neg (by omega), hk, hs]

theorem agree_momOf (p : Prob K n) (hp : p.Ok) (x : Nat → K) : Agree p x (momOf p x) where
  num := by
    intro k a ha
    obtain ⟨h2, hk, hs⟩ := numbered_unknown p hp k a ha
    rw [momOf_unknown p x k h2 hk hs]
    simp [valOf, ha]
  zero := by simp [momOf]
  one := by simp [momOf]
  known := by
    intro k q hq
    unfold momOf
    split
    · rename_i e; subst e; rw [hp.zero q hq]
    · split
      · rename_i e; subst e; rw [hp.one q hq]
      · rw [hq]
  semi := by
    intro k s hs
    have hm := get_mem _ _ _ hs
    obtain ⟨a1, a2⟩ := hp.semi_unknown _ hm
    obtain ⟨b1, b2, b3⟩ := hp.target_unknown _ hm
    have ek : p.known.get k = none := (get_none _ _).2 a2
    rw [momOf_unknown p x s.2 b1 ((get_none _ _).2 b2) ((get_none _ _).2 b3)]
    unfold momOf
    dsimp only at a1
    rw [if_neg (by omega), if_neg (by omega), ek, hs]

/-- The values of the variables given by values of the moments. -/
def varOf (p : Prob K n) (v : Nat → K) (a : Nat) : K := match (matrixPart p).vc.find? fun t => t.2 == a with
  | some t => v t.1
  | none => 0

theorem agree_varOf (p : Prob K n) (v : Nat → K) (h0 : v 0 = 0) (h1 : v 1 = 1) (hk : ∀ t ∈ p.known, v t.1 = t.2)
    (hs : ∀ t ∈ p.semi, v t.1 = t.2.1 * v t.2.2) : Agree p (varOf p v) v where
  num := by
    intro k a ha
    unfold varOf
    have hN := (matrix_spec p).1
    rcases hf : (matrixPart p).vc.find? fun t => t.2 == a with _ | t
    · rw [List.find?_eq_none] at hf
      exact absurd (hf _ (get_mem _ _ _ ha)) (by simp)
    · have hm := List.mem_of_find?_eq_some hf
      have hv : t.2 = a := by simpa using List.find?_some hf
      have := (get_of_mem _ hN.nodup t.1 t.2).1 hm
      rw [hv] at this
      rw [hf]
      exact congrArg v (hN.inj _ _ _ this ha)
  zero := h0
  one := h1
  known := fun k q hq => hk _ (get_mem _ _ _ hq)
  semi := fun k s hs' => hs _ (get_mem _ _ _ hs')

variable [IsStrictOrderedRing K]

/-- The constraints of the file and those of the problem agree. -/
theorem written_iff {tol : K} {p : Prob K n} (hp : p.Ok) (he : p.Exportable tol) (x v : Nat → K) (h : Agree p x v) : Written p v ↔ p.Feasible v := by
  constructor
  · intro hw
    have hlow : ∀ t ∈ p.lower, p.known.get t.1 = none → p.semi.get t.1 = none → 1 < t.1 → t.2 ≤ v t.1 := by
      intro t ht hk hs h1
      have := hw.lower t ((mem_active p _ _).2 ⟨ht, by omega, hk, hs⟩)
      linarith
    refine ⟨h.zero, h.one, fun t ht => h.known _ _ ((get_of_mem _ hp.known _ _).1 ht), fun t ht => h.semi _ _ ((get_of_mem _ hp.semi _ _).1 ht), hw.psd,
      ?_, ?_, hw.eqs, hw.ineqs⟩
    · intro t ht
      rcases hk : p.known.get t.1 with _ | q
      · by_cases h1 : t.1 ≤ 1
        · have := he.boundOne.1 t ht h1
          have hcases : t.1 = 0 ∨ t.1 = 1 := by omega
          rcases hcases with e | e <;> rw [e] at this ⊢
          · rw [h.zero]; simpa using this
          · rw [h.one]; simpa using this
        · rcases hs : p.semi.get t.1 with _ | s
          · have := hw.upper t ((mem_active p _ _).2 ⟨ht, by omega, hk, hs⟩)
            linarith
          · exact absurd rfl (he.semiUpper _ (get_mem _ _ _ hs) t ht)
      · rw [h.known _ _ hk]
        exact (he.boundKnown _ (get_mem _ _ _ hk)).1 t ht rfl
    · intro t ht
      rcases hk : p.known.get t.1 with _ | q
      · by_cases h1 : t.1 ≤ 1
        · have := he.boundOne.2 t ht h1
          have hcases : t.1 = 0 ∨ t.1 = 1 := by omega
          rcases hcases with e | e <;> rw [e] at this ⊢
          · rw [h.zero]; simpa using this
          · rw [h.one]; simpa using this
        · rcases hs : p.semi.get t.1 with _ | s
          · exact hlow t ht hk hs (by omega)
          · obtain ⟨g1, g2, u, hu, hu1, hu2⟩ := he.semiLower _ (get_mem _ _ _ hs) t ht rfl
            obtain ⟨b1, b2, b3⟩ := hp.target_unknown _ (get_mem _ _ _ hs)
            dsimp only at hu1 b1 b2 b3 g2
            have := hlow u hu (by rw [hu1]; exact (get_none _ _).2 b2) (by rw [hu1]; exact (get_none _ _).2 b3) (by omega)
            rw [hu1] at this
            rw [h.semi _ _ hs]
            have : 0 ≤ s.1 * v s.2 := mul_nonneg g2 (le_trans hu2 this)
            linarith
      · rw [h.known _ _ hk]
        exact (he.boundKnown _ (get_mem _ _ _ hk)).2 t ht rfl
  · intro hf
    refine ⟨hf.psd, ?_, ?_, hf.eqs, hf.ineqs⟩
    · intro t ht
      have := hf.upper t ((mem_active p _ _).1 ht).1
      linarith
    · intro t ht
      have := hf.lower t ((mem_active p _ _).1 ht).1
      linarith

/-- From the file to the problem and back. -/
theorem prog_equiv {tol : K} {p : Prob K n} {f : File K} (hf : sdpaFile tol p = some f) (hp : p.Ok) (he : p.Exportable tol) :
    (∀ x, f.prog.Feasible x → ∃ v, p.Feasible v ∧ f.prog.value x = lin p.objective v - f.constant)
    ∧ ∀ v, p.Feasible v → ∃ x, f.prog.Feasible x ∧ f.prog.value x = lin p.objective v - f.constant := by
  obtain ⟨P⟩ := parts_of tol p f hf
  constructor
  · intro x hx
    have ha := agree_momOf p hp x
    exact ⟨momOf p x, (written_iff hp he x _ ha).1 ((feasible_iff P hp he x _ ha).1 hx), (value_eq P hp x _ ha).1⟩
  · intro v hv
    have ha := agree_varOf p v hv.zero hv.one hv.known hv.semi
    exact ⟨varOf p v, (feasible_iff P hp he _ v ha).2 ((written_iff hp he _ v ha).2 hv), (value_eq P hp _ v ha).1⟩

end Verif.SdpWriter
