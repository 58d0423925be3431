import Verif.SdpSolver.Core
/-
The primal problem handed to the solver is equivalent to the problem given.
-/
namespace Verif.SdpSolver
set_option linter.unusedSectionVars false
open Verif.State

variable {α K : Type} [DecidableEq α] [Field K] [LinearOrder K] {n : Nat}

theorem constMat_eq (known : Dict α K) (m : Dict α (Option (Mat n K))) (i j : Fin n) :
    constMat known m i j = gsum (fun F => entry F i j) m (over known fun _ => 0) := by
  unfold constMat gsum
  rw [← sum_split (fun t : α × Option (Mat n K) => has known t.1) (fun t => entry t.2 i j * over known (fun _ => 0) t.1)]
  have h1 : ((m.filter fun t => !has known t.1).map fun t => entry t.2 i j * over known (fun _ => (0 : K)) t.1).sum = 0 := by
    apply List.sum_eq_zero
    intro a ha
    obtain ⟨t, ht, rfl⟩ := List.mem_map.1 ha
    rw [over_free (by simpa using (List.mem_filter.1 ht).2), mul_zero]
  rw [h1, zero_add]
  congr 1
  apply List.map_congr_left
  intro t ht
  rw [over_known (List.mem_filter.1 ht).2, mul_comm]

theorem semi_over_zero {known : Dict α K} {semi : Dict α (K × α)} (h1 : ∀ s ∈ semi, s.1 ∉ known.keys) (h2 : ∀ s ∈ semi, s.2.2 ∉ known.keys) :
    Semi semi (over known fun _ => 0) := by
  intro s hs
  have a1 : has known s.1 = false := by
    rw [Bool.eq_false_iff]; exact fun h => h1 s hs ((has_iff _ _).1 h)
  have a2 : has known s.2.2 = false := by
    rw [Bool.eq_false_iff]; exact fun h => h2 s hs ((has_iff _ _).1 h)
  rw [over_free a1, over_free a2, mul_zero]

theorem gamma_eq {fl : Flags α} {hm : Bool} {known : Dict α K} {semi : Dict α (K × α)} {w : Work α K n} {P : Prep α K n} (hw : Clean fl hm known semi w)
    (hP : Final fl.process known semi w P) (x : α → K) (i j : Fin n) :
    P.gamma x i j = gsum (fun F : Mat n K => F i j) P.masks (over known x) := by
  unfold Prep.gamma
  rw [hP.F0, constMat_eq, ← hP.masks _ (semi_over_zero hw.semi_unknown hw.target_unknown)]
  unfold gsum
  rw [← sum_split (fun t : α × Mat n K => decide (t.1 ∈ P.vars)) (fun t => t.2 i j * over known x t.1),
    ← sum_split (fun t : α × Mat n K => decide (t.1 ∈ P.vars)) (fun t => t.2 i j * over known (fun _ => 0) t.1)]
  have h1 : ((P.masks.filter fun t => decide (t.1 ∈ P.vars)).map fun t => t.2 i j * over known (fun _ => (0 : K)) t.1).sum = 0 := by
    apply List.sum_eq_zero
    intro a ha
    obtain ⟨t, ht, rfl⟩ := List.mem_map.1 ha
    have hv : t.1 ∈ P.vars := by simpa using (List.mem_filter.1 ht).2
    have : has known t.1 = false := by
      rw [Bool.eq_false_iff]; exact fun h => hP.vars_unknown _ hv ((has_iff _ _).1 h)
    rw [over_free this, mul_zero]
  rw [h1, add_zero]
  congr 2
  · apply List.map_congr_left
    intro t ht
    obtain ⟨ht1, ht2⟩ := List.mem_filter.1 ht
    have hv : t.1 ∉ P.vars := by simpa using ht2
    have : has known t.1 = true := by
      rw [has_iff]
      by_contra hk
      exact hv (hP.masks_vars t.1 (List.mem_map.2 ⟨t, ht1, rfl⟩) hk)
    rw [over_known this, over_known this]
  · apply List.map_congr_left
    intro t ht
    have hv : t.1 ∈ P.vars := by simpa using (List.mem_filter.1 ht).2
    have : has known t.1 = false := by
      rw [Bool.eq_false_iff]; exact fun h => hP.vars_unknown _ hv ((has_iff _ _).1 h)
    rw [over_free this]

/-- Values of all the names from the values of the remaining variables. -/
def extend (process : Bool) (known : Dict α K) (semi : Dict α (K × α)) (x : α → K) : α → K :=
  over known fun y => if process then (match Dict.get semi y with | some s => s.1 * x s.2 | none => x y) else x y

theorem extend_free {process : Bool} {known : Dict α K} {semi : Dict α (K × α)} {x : α → K} {y : α} (h : y ∉ known.keys) (hs : process = true → y ∉ semi.keys) :
    extend process known semi x y = x y := by
  have : has known y = false := by rw [Bool.eq_false_iff]; exact fun h' => h ((has_iff _ _).1 h')
  unfold extend
  rw [over_free this]
  cases process with
  | false => rfl
  | true => simp only [if_true, (get_none semi y).2 (hs rfl)]

theorem extend_known {process : Bool} {known : Dict α K} {semi : Dict α (K × α)} {x x' : α → K} {y : α} (h : y ∈ known.keys) :
    extend process known semi x y = over known x' y := by
  have : has known y = true := (has_iff _ _).2 h
  unfold extend
  rw [over_known this, over_known this]

theorem extend_semi {fl : Flags α} {hm : Bool} {known : Dict α K} {semi : Dict α (K × α)} {w : Work α K n} (hw : Clean fl hm known semi w) (x : α → K) :
    Semi semi (extend true known semi x) := by
  intro s hs
  rw [extend_free (hw.target_unknown s hs) fun _ => hw.target_free s hs]
  have : has known s.1 = false := by rw [Bool.eq_false_iff]; exact fun h' => hw.semi_unknown s hs ((has_iff _ _).1 h')
  unfold extend
  rw [over_free this]
  simp only [if_true, (get_of_mem semi hw.semi_nodup s.1 s.2).1 hs]

/-- The problem before processing. -/
structure Work.Solves (w : Work α K n) (known : Dict α K) (semi : Dict α (K × α)) (v : α → K) : Prop where
  known : ∀ y ∈ known.keys, v y = (Dict.get known y).getD 0
  semi : Semi semi v
  ineq : ∀ d ∈ w.ineqs, 0 ≤ lin d v
  eq : ∀ d ∈ w.eqs, lin d v = 0
  psd : PSD fun i j => gsum (fun F => entry F i j) w.masks v

theorem over_of_known {known : Dict α K} {v : α → K} (h : ∀ y ∈ known.keys, v y = (Dict.get known y).getD 0) (x : α → K) {y : α} (hx : y ∉ known.keys → v y = x y) :
    over known x y = v y := by
  by_cases hk : y ∈ known.keys
  · rw [h y hk, over_known ((has_iff _ _).2 hk)]
  · rw [hx hk, over_free (by rw [Bool.eq_false_iff]; exact fun h' => hk ((has_iff _ _).1 h'))]

/-- The core of C32. -/
theorem core {fl : Flags α} {hm : Bool} {known : Dict α K} {semi : Dict α (K × α)} {w : Work α K n} {P : Prep α K n} (hw : Clean fl hm known semi w)
    (h : prepFrom fl hm known semi w = some P) (nonneg : Bool) (x : α → K) :
    ((∃ G, P.Primal nonneg x G) ↔ ∃ v, w.Solves known semi v ∧ (∀ y ∈ P.vars, v y = x y) ∧ (nonneg = true → ∀ y ∈ P.vars, 0 ≤ v y)) ∧
    ∀ v, w.Solves known semi v → (∀ y ∈ P.vars, v y = x y) → P.primalValue x = lin w.objective v := by
  have hP := final_of hw h
  have hrow : ∀ (v : α → K), (∀ y ∈ known.keys, v y = (Dict.get known y).getD 0) → (∀ y ∈ P.vars, v y = x y) → ∀ d : Dict α K, (∀ y ∈ d.keys, y ∉ known.keys → y ∈ P.vars) →
      lin d (over known x) = lin d v := by
    intro v h1 h2 d hd
    exact lin_congr d _ _ fun y hy => over_of_known h1 x fun hk => h2 y (hd y hy hk)
  have hgam : ∀ (v : α → K), Semi semi v → (∀ y ∈ known.keys, v y = (Dict.get known y).getD 0) → (∀ y ∈ P.vars, v y = x y) → ∀ i j,
      P.gamma x i j = gsum (fun F => entry F i j) w.masks v := by
    intro v hs h1 h2 i j
    rw [gamma_eq hw hP, ← hP.masks v hs i j]
    exact gsum_congr _ _ _ _ fun y hy => over_of_known h1 x fun hk => h2 y (hP.masks_vars y hy hk)
  refine ⟨⟨?_, ?_⟩, ?_⟩
  · rintro ⟨G, hG⟩
    have hvars : ∀ y ∈ P.vars, extend fl.process known semi x y = x y := by
      intro y hy
      exact extend_free (hP.vars_unknown y hy) fun hp => ((hP.vars_free hp y).1 hy).2
    have hkn : ∀ y ∈ known.keys, extend fl.process known semi x y = (Dict.get known y).getD 0 := by
      intro y hy
      rw [extend_known (x' := x) hy, over_known ((has_iff _ _).2 hy)]
    have heq : ∀ d ∈ P.eqs, lin d (extend fl.process known semi x) = 0 := by
      intro d hd
      rw [← hrow _ hkn hvars d (hP.eqs_vars d hd)]
      have := hG.eq d hd
      rwa [row_eq, hP.known_eq] at this
    have hsem : Semi semi (extend fl.process known semi x) := by
      cases hp : fl.process with
      | true => exact extend_semi hw x
      | false =>
        rw [hp] at heq
        exact hP.eqs_semi hp _ heq
    refine ⟨extend fl.process known semi x, ⟨hkn, hsem, ?_, (hP.eqs _ hsem).1 heq, ?_⟩, hvars, ?_⟩
    · apply (hP.ineqs _ hsem).1
      intro d hd
      rw [← hrow _ hkn hvars d (hP.ineqs_vars d hd)]
      have := hG.ineq d hd
      rwa [row_eq, hP.known_eq] at this
    · have hgG : (fun i j => gsum (fun F => entry F i j) w.masks (extend fl.process known semi x)) = G := by
        funext i j
        have hsy : ∀ i j, gsum (fun F => entry F i j) w.masks (extend fl.process known semi x) = gsum (fun F => entry F j i) w.masks (extend fl.process known semi x) := by
          intro i j
          unfold gsum
          congr 1
          apply List.map_congr_left
          intro t ht
          show entry t.2 i j * _ = entry t.2 j i * _
          rw [hw.symm t ht i j]
        rcases le_total i j with hij | hij
        · rw [hG.upper i j hij, hgam _ hsem hkn hvars]
        · rw [hsy, hG.psd.symm i j, hG.upper j i hij, hgam _ hsem hkn hvars]
      rw [hgG]
      exact hG.psd
    · intro hn y hy
      rw [hvars y hy]
      exact hG.sign hn y hy
  · rintro ⟨v, hv, hx, hn⟩
    refine ⟨fun i j => gsum (fun F => entry F i j) w.masks v, ?_, ?_, hv.psd, ?_, ?_⟩
    · intro d hd
      rw [row_eq, hP.known_eq, hrow v hv.known hx d (hP.ineqs_vars d hd)]
      exact (hP.ineqs v hv.semi).2 hv.ineq d hd
    · intro d hd
      rw [row_eq, hP.known_eq, hrow v hv.known hx d (hP.eqs_vars d hd)]
      exact (hP.eqs v hv.semi).2 hv.eq d hd
    · intro i j _
      rw [hgam v hv.semi hv.known hx]
    · intro hnn y hy
      rw [← hx y hy]
      exact hn hnn y hy
  · intro v hv hx
    rw [primalValue_eq, hP.known_eq, hrow v hv.known hx P.objective hP.obj_vars, hP.objective v hv.semi]

/-! ### The initial state -/

theorem mem_baseVars (inp : Input α K n) (y : α) : y ∈ baseVars inp ↔
    y ∉ inp.known.keys ∧ (y ∈ inp.masks.keys ∨ y ∈ inp.objective.keys ∨ (∃ d ∈ inp.eqs, y ∈ d.keys) ∨ (∃ d ∈ inp.ineqs, y ∈ d.keys)) := by
  unfold baseVars
  simp only [List.mem_filter, Common.mem_dedupB, List.mem_append, List.mem_flatMap, Bool.not_eq_true', or_assoc]
  rw [Bool.eq_false_iff, Ne, has_iff]
  exact and_comm

theorem nodup_baseVars (inp : Input α K n) : (baseVars inp).Nodup := (Common.nodup_dedupB _).filter _

theorem lamName_notMem {fl : Flags α} (hinj : ∀ a b, fl.lam a = fl.lam b → a = b) (vars : List α) : lamName fl vars ∉ vars := by
  unfold lamName
  rcases hf : (List.range (vars.length + 1)).find? (fun k => !decide (fl.lam k ∈ vars)) with _ | k
  · exfalso
    have hall : ∀ k ∈ List.range (vars.length + 1), fl.lam k ∈ vars := by
      intro k hk
      have := List.find?_eq_none.1 hf k hk
      simpa using this
    have hnd : ((List.range (vars.length + 1)).map fl.lam).Nodup := List.Nodup.map (fun a b h => hinj a b h) List.nodup_range
    have hsub : ((List.range (vars.length + 1)).map fl.lam) ⊆ vars := by
      intro y hy
      obtain ⟨k, hk, rfl⟩ := List.mem_map.1 hy
      exact hall k hk
    have := (List.subperm_of_subset hnd hsub).length_le
    simp at this
  · have := List.find?_some hf
    simpa using this

theorem keys_some (m : Dict α (Mat n K)) : Dict.keys (m.map fun t => (t.1, some t.2)) = m.keys := by
  simp [Dict.keys, Function.comp_def]

theorem gsum_some (m : Dict α (Mat n K)) (v : α → K) (i j : Fin n) :
    gsum (fun F => entry F i j) (m.map fun t => (t.1, some t.2)) v = (m.map fun t => t.2 i j * v t.1).sum := by
  unfold gsum
  rw [List.map_map]
  rfl

theorem clean_start {fl : Flags α} {inp : Input α K n} (hok : inp.Ok) (hfr : fl.feas = true → fl.Fresh inp) (hm : fl.feas = true → inp.masks ≠ []) :
    Clean fl (!inp.masks.isEmpty) inp.known inp.semiknown (start fl inp) := by
  have hsym : ∀ t ∈ (inp.masks.map fun t => (t.1, some t.2)), ∀ i j, entry t.2 i j = entry t.2 j i := by
    intro t ht i j
    obtain ⟨u, hu, rfl⟩ := List.mem_map.1 ht
    exact hok.symm u hu i j
  by_cases hf : fl.feas = true
  · have hfr := hfr hf
    have hm := hm hf
    have he : inp.masks.isEmpty = false := by simpa using hm
    have hs : start fl inp = ⟨baseVars inp ++ [lamName fl (baseVars inp)], Dict.set (inp.masks.map fun t => (t.1, some t.2)) (lamName fl (baseVars inp)) (some minusOne),
        [(lamName fl (baseVars inp), 1)], inp.ineqs, inp.eqs⟩ := by
      unfold start
      rw [hf, he]
      rfl
    have hlam := lamName_notMem hfr.inj (baseVars inp)
    obtain ⟨k, hk⟩ : ∃ k, lamName fl (baseVars inp) = fl.lam k := ⟨_, rfl⟩
    rw [hs]
    exact {
      masks := nodup_set _ _ _ (by rw [keys_some]; exact hok.masks)
      objective := by simp [Dict.keys]
      ineqs := hok.ineqs
      eqs := hok.eqs
      symm := by
        intro t ht i j
        obtain ⟨y, F⟩ := t
        have hnd := nodup_set (inp.masks.map fun t => (t.1, some t.2)) (lamName fl (baseVars inp)) (some minusOne) (by rw [keys_some]; exact hok.masks)
        have hg := (get_of_mem _ hnd y F).1 ht
        rw [get_set] at hg
        split at hg
        · simp only [Option.some.injEq] at hg
          subst hg
          simp only [entry, minusOne, eq_comm]
        · refine hsym (y, F) ?_ i j
          exact (get_of_mem _ (by rw [keys_some]; exact hok.masks) y F).2 hg
      masks_vars := by
        intro y hy hkn
        rcases (mem_set_keys _ _ _ _).1 hy with rfl | hy
        · simp
        · rw [keys_some] at hy
          exact List.mem_append_left _ ((mem_baseVars _ _).2 ⟨hkn, .inl hy⟩)
      obj_vars := by
        intro y hy hkn
        have : y = lamName fl (baseVars inp) := by simpa [Dict.keys] using hy
        rw [this]
        simp
      vars_unknown := by
        intro y hy
        rcases List.mem_append.1 hy with hy | hy
        · exact ((mem_baseVars _ _).1 hy).1
        · have : y = lamName fl (baseVars inp) := by simpa using hy
          rw [this, hk]
          exact hfr.known k
      vars_nodup := by
        refine List.nodup_append.2 ⟨nodup_baseVars inp, by simp, ?_⟩
        intro a ha b hb e
        have : b = lamName fl (baseVars inp) := by simpa using hb
        rw [e, this] at ha
        exact hlam ha
      nomasks := by simp [he]
      obj_feas := by
        intro _ y hy hmem
        have : y = lamName fl (baseVars inp) := by simpa [Dict.keys] using hy
        obtain ⟨s, hs, hse⟩ := List.mem_map.1 hmem
        exact (hfr.semi k s hs).1 (by rw [← hk, ← this, hse])
      semi_nodup := hok.semiknown
      semi_unknown := hok.semi_unknown
      target_unknown := hok.target_unknown
      target_free := hok.target_free }
  · have hf' : fl.feas = false := by simpa using hf
    have hs : start fl inp = ⟨baseVars inp, inp.masks.map fun t => (t.1, some t.2), inp.objective, inp.ineqs, inp.eqs⟩ := by
      unfold start
      rw [hf']
      rfl
    rw [hs]
    exact {
      masks := by rw [keys_some]; exact hok.masks
      objective := hok.objective
      ineqs := hok.ineqs
      eqs := hok.eqs
      symm := hsym
      masks_vars := fun y hy hkn => (mem_baseVars _ _).2 ⟨hkn, .inl (by rwa [keys_some] at hy)⟩
      obj_vars := fun y hy hkn => (mem_baseVars _ _).2 ⟨hkn, .inr (.inl hy)⟩
      vars_unknown := fun y hy => ((mem_baseVars _ _).1 hy).1
      vars_nodup := nodup_baseVars inp
      nomasks := by
        intro h
        have : inp.masks = [] := by simpa using h
        rw [this]
        rfl
      obj_feas := fun h => absurd h hf
      semi_nodup := hok.semiknown
      semi_unknown := hok.semi_unknown
      target_unknown := hok.target_unknown
      target_free := hok.target_free }

end Verif.SdpSolver
