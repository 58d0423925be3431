import Verif.SdpSolver.Props
import Mathlib.Algebra.BigOperators.Group.Finset.Basic
/-
C31 for the SDP: the certificates, and C49: the reported moment matrix.
-/
namespace Verif.SdpSolver
open Verif.State

variable {α K : Type} [DecidableEq α] [Field K] {n : Nat}

theorem gsum_eq_sum {β : Type} (φ : β → K) (z : β) (hz : φ z = 0) (d : Dict α β) (hd : d.keys.Nodup) (S : Finset α) (hS : ∀ y ∈ d.keys, y ∈ S) (v : α → K) :
    gsum φ d v = ∑ y ∈ S, φ ((Dict.get d y).getD z) * v y := by
  induction d with
  | nil => simp [gsum, hz]
  | cons t d ih =>
    obtain ⟨a, b⟩ := t
    simp only [Dict.keys, List.map_cons, List.nodup_cons] at hd
    rw [gsum_cons, ih hd.2 fun y hy => hS y (List.mem_cons_of_mem _ hy)]
    have hg : Dict.get d a = none := (get_none d a).2 hd.1
    have : ∀ y ∈ S, φ ((Dict.get ((a, b) :: d) y).getD z) * v y = φ ((Dict.get d y).getD z) * v y + if y = a then φ b * v a else 0 := by
      intro y _
      by_cases e : y = a
      · subst e
        simp [get_cons, hg, hz]
      · have : ¬ a = y := fun h => e h.symm
        simp [get_cons, this, e]
    rw [Finset.sum_congr rfl this, Finset.sum_add_distrib, Finset.sum_ite_eq' S a, if_pos (hS a List.mem_cons_self), add_comm]

theorem lin_eq_sum (d : Dict α K) (hd : d.keys.Nodup) (S : Finset α) (hS : ∀ y ∈ d.keys, y ∈ S) (v : α → K) :
    lin d v = ∑ y ∈ S, (Dict.get d y).getD 0 * v y := gsum_eq_sum id 0 rfl d hd S hS v

theorem inner_gsum (Z : Mat n K) (m : Dict α (Mat n K)) (v : α → K) :
    inner Z (fun i j => gsum (fun F : Mat n K => F i j) m v) = gsum (inner Z) m v := by
  induction m with
  | nil => simp [inner, gsum]
  | cons t m ih =>
    obtain ⟨a, F⟩ := t
    rw [gsum_cons, ← ih]
    simp only [gsum_cons, inner, mul_add, Finset.sum_add_distrib, Finset.sum_mul, mul_assoc]

theorem inner_masks_sum (Z : Mat n K) (m : Dict α (Mat n K)) (hm : m.keys.Nodup) (S : Finset α) (hS : ∀ y ∈ m.keys, y ∈ S) (v : α → K) :
    gsum (inner Z) m v = ∑ y ∈ S, ((Dict.get m y).map (inner Z)).getD 0 * v y := by
  rw [gsum_eq_sum (inner Z) 0 (by simp [inner]) m hm S hS]
  refine Finset.sum_congr rfl fun y _ => ?_
  cases Dict.get m y <;> simp [inner]

theorem rows_sum_aux (g : Dict α K → Nat → K) (f : Nat → Dict α K → α → K) (S : Finset α) (v : α → K) (l : List (Dict α K × Nat))
    (h : ∀ t ∈ l, g t.1 t.2 = ∑ y ∈ S, f t.2 t.1 y * v y) :
    (l.map fun t => g t.1 t.2).sum = ∑ y ∈ S, (l.map fun t => f t.2 t.1 y).sum * v y := by
  induction l with
  | nil => simp
  | cons t l ih =>
    simp only [List.map_cons, List.sum_cons, add_mul, Finset.sum_add_distrib]
    rw [ih fun u hu => h u (List.mem_cons_of_mem _ hu), h t List.mem_cons_self]

/-- The combination of the constraints with given multipliers, name by name. -/
theorem rows_sum (rows : List (Dict α K)) (mult : Nat → K) (hn : ∀ d ∈ rows, d.keys.Nodup) (S : Finset α) (hS : ∀ d ∈ rows, ∀ y ∈ d.keys, y ∈ S) (v : α → K) :
    (rows.zipIdx.map fun t => mult t.2 * lin t.1 v).sum = ∑ y ∈ S, (rows.zipIdx.map fun t => mult t.2 * (Dict.get t.1 y).getD 0).sum * v y := by
  refine rows_sum_aux (fun d i => mult i * lin d v) (fun i d y => mult i * (Dict.get d y).getD 0) S v rows.zipIdx ?_
  intro t ht
  have hmem : t.1 ∈ rows := by
    obtain ⟨d, i⟩ := t
    have := List.mem_zipIdx ht
    simp only [zero_add] at this
    rw [this.2.2]
    exact List.getElem_mem _
  rw [lin_eq_sum t.1 (hn _ hmem) S (hS _ hmem), Finset.mul_sum]
  exact Finset.sum_congr rfl fun y _ => by ring

variable [LinearOrder K]

/-- The coefficient of a known moment in the bound. -/
def Prep.trueEntry (P : Prep α K n) (Z : Mat n K) (I E : Nat → K) (y : α) : K :=
  (Dict.get P.objective y).getD 0 + ((Dict.get P.masks y).map (inner Z)).getD 0 + (P.ineqs.zipIdx.map fun t => I t.2 * (Dict.get t.1 y).getD 0).sum +
    (P.eqs.zipIdx.map fun t => E t.2 * (Dict.get t.1 y).getD 0).sum

variable [IsStrictOrderedRing K]

theorem sum_zipIdx_nonneg (rows : List (Dict α K)) (mult : Nat → K) (hm : ∀ i, i < rows.length → 0 ≤ mult i) (v : α → K) (h : ∀ d ∈ rows, 0 ≤ lin d v) :
    0 ≤ (rows.zipIdx.map fun t => mult t.2 * lin t.1 v).sum := by
  apply List.sum_nonneg
  intro a ha
  obtain ⟨⟨d, i⟩, ht, rfl⟩ := List.mem_map.1 ha
  have hz := List.mem_zipIdx ht
  simp only [zero_add] at hz
  have hd : d ∈ rows := by rw [hz.2.2]; exact List.getElem_mem _
  exact mul_nonneg (hm i (by omega)) (h d hd)

omit [LinearOrder K] [IsStrictOrderedRing K] in
theorem sum_zipIdx_zero (rows : List (Dict α K)) (mult : Nat → K) (v : α → K) (h : ∀ d ∈ rows, lin d v = 0) :
    (rows.zipIdx.map fun t => mult t.2 * lin t.1 v).sum = 0 := by
  apply List.sum_eq_zero
  intro a ha
  obtain ⟨⟨d, i⟩, ht, rfl⟩ := List.mem_map.1 ha
  have hz := List.mem_zipIdx ht
  simp only [zero_add] at hz
  have hd : d ∈ rows := by rw [hz.2.2]; exact List.getElem_mem _
  simp only
  rw [h d hd, mul_zero]

/-- Every solution of the processed problem, for any known values, satisfies the bound given by multipliers feasible for the dual. -/
theorem bound_core {process : Bool} {known : Dict α K} {semi : Dict α (K × α)} {w : Work α K n} {P : Prep α K n} (hP : Final process known semi w P) {nonneg : Bool} {Z : Mat n K} {I E : Nat → K}
    (hD : P.Dual nonneg Z I E) {v : α → K} (hineq : ∀ d ∈ P.ineqs, 0 ≤ lin d v) (heq : ∀ d ∈ P.eqs, lin d v = 0)
    (hpsd : PSD fun i j => gsum (fun F : Mat n K => F i j) P.masks v) (hsign : nonneg = true → ∀ y ∈ P.vars, 0 ≤ v y) :
    lin P.objective v ≤ ∑ y ∈ known.keys.toFinset, P.trueEntry Z I E y * v y := by
  set S : Finset α := known.keys.toFinset ∪ P.vars.toFinset with hSdef
  have hcov : ∀ y, (y ∉ known.keys → y ∈ P.vars) → y ∈ S := by
    intro y h
    rw [hSdef, Finset.mem_union, List.mem_toFinset, List.mem_toFinset]
    by_cases hk : y ∈ known.keys
    · exact .inl hk
    · exact .inr (h hk)
  have hdis : Disjoint known.keys.toFinset P.vars.toFinset := by
    rw [Finset.disjoint_left]
    intro y hy hy2
    rw [List.mem_toFinset] at hy hy2
    exact hP.vars_unknown y hy2 hy
  have e1 := lin_eq_sum P.objective hP.obj_nodup S (fun y hy => hcov y (hP.obj_vars y hy)) v
  have e2 := inner_masks_sum Z P.masks hP.masks_nodup S (fun y hy => hcov y (hP.masks_vars y hy)) v
  have e3 := rows_sum P.ineqs I hP.ineqs_nodup S (fun d hd y hy => hcov y (hP.ineqs_vars d hd y hy)) v
  have e4 := rows_sum P.eqs E hP.eqs_nodup S (fun d hd y hy => hcov y (hP.eqs_vars d hd y hy)) v
  have n2 : 0 ≤ gsum (inner Z) P.masks v := by
    rw [← inner_gsum]; exact inner_nonneg hD.psd hpsd
  have n3 := sum_zipIdx_nonneg P.ineqs I hD.pos v hineq
  have n4 := sum_zipIdx_zero P.eqs E v heq
  have htot : lin P.objective v + gsum (inner Z) P.masks v + (P.ineqs.zipIdx.map fun t => I t.2 * lin t.1 v).sum + (P.eqs.zipIdx.map fun t => E t.2 * lin t.1 v).sum
      = ∑ y ∈ S, P.trueEntry Z I E y * v y := by
    rw [e1, e2, e3, e4, ← Finset.sum_add_distrib, ← Finset.sum_add_distrib, ← Finset.sum_add_distrib]
    refine Finset.sum_congr rfl fun y _ => ?_
    unfold Prep.trueEntry
    ring
  have hvar : ∑ y ∈ P.vars.toFinset, P.trueEntry Z I E y * v y ≤ 0 := by
    apply Finset.sum_nonpos
    intro y hy
    rw [List.mem_toFinset] at hy
    have hk : has P.known y = false := by
      rw [hP.known_eq, Bool.eq_false_iff]; exact fun h => hP.vars_unknown y hy ((has_iff _ _).1 h)
    have hl : P.trueEntry Z I E y = P.dualLhs Z I E y := by
      unfold Prep.trueEntry Prep.dualLhs Prep.column
      simp only [hk, Bool.false_eq_true, if_false]
    rw [hl]
    cases hn : nonneg with
    | false => rw [hD.eq hn y hy, zero_mul]
    | true => exact mul_nonpos_of_nonpos_of_nonneg (hD.le hn y hy) (hsign hn y hy)
  rw [hSdef, Finset.sum_union hdis] at htot
  linarith

/-- The objective of the processed problem has no known moment that is also in the moment matrix. -/
def Prep.NoOverlap (P : Prep α K n) : Prop := ∀ y ∈ P.known.keys, y ∈ P.masks.keys → (Dict.get P.objective y).getD 0 = 0

omit [LinearOrder K] [IsStrictOrderedRing K] in
theorem certEntry_eq {P : Prep α K n} (h : P.NoOverlap) (Z : Mat n K) (I E : Nat → K) {feas : Bool} (hf : feas = true → ∀ y ∈ P.known.keys, (Dict.get P.objective y).getD 0 = 0)
    {y : α} (hy : y ∈ P.known.keys) : P.certEntry feas Z I E y = P.trueEntry Z I E y := by
  unfold Prep.certEntry Prep.trueEntry
  have hfirst : (if feas then 0 else (Dict.get P.objective y).getD 0) = (Dict.get P.objective y).getD 0 := by
    cases feas with
    | false => rfl
    | true => rw [hf rfl y hy]; rfl
  simp only
  rw [hfirst]
  rcases hg : Dict.get P.masks y with _ | F
  · simp
  · rw [h y hy ((mem_keys _ _).2 ⟨F, hg⟩)]
    simp

omit [LinearOrder K] [IsStrictOrderedRing K] in
theorem cert_sum (known : Dict α K) (hn : known.keys.Nodup) (f : α → K) (v : α → K) :
    (known.map fun t => f t.1 * v t.1).sum = ∑ y ∈ known.keys.toFinset, f y * v y := by
  rw [List.sum_toFinset _ hn]
  unfold Dict.keys
  rw [List.map_map]
  rfl

/-- The value of the certificate, before tiny entries are deleted, at the values `v` of the known moments. -/
def Prep.certAt (P : Prep α K n) (feas : Bool) (Z : Mat n K) (I E : Nat → K) (v : α → K) : K := (P.known.map fun t => P.certEntry feas Z I E t.1 * v t.1).sum

/-- The arguments with other known values. -/
def Input.withKnown (inp : Input α K n) (known : Dict α K) : Input α K n := { inp with known := known }

omit [LinearOrder K] [IsStrictOrderedRing K] in
theorem unknown_withKnown {inp : Input α K n} {known : Dict α K} (hk : ∀ y, y ∈ known.keys ↔ y ∈ inp.known.keys) (y : α) :
    (inp.withKnown known).Unknown y ↔ inp.Unknown y := by
  unfold Input.Unknown Input.withKnown
  simp only [hk]

/-- **C31, SDP optimisation.** Let the solver return a point feasible for the dual. For every assignment of values to the moments that
satisfies the constraints of the program with *any* known values of the same moments, the certificate evaluated at these values bounds the
objective from above. (Provided no known moment is both in the objective and in the moment matrix, see `C31_sdp_false_with_known_objective`.) -/
theorem C31_sdp_certificate_bounds {fl : Flags α} {inp : Input α K n} (hok : inp.Ok) (hf : fl.feas = false)
    {P : Prep α K n} (h : prep fl inp = some P) (hno : P.NoOverlap) {Z : Mat n K} {I E : Nat → K} (hD : P.Dual fl.nonneg Z I E)
    {known : Dict α K} (hk : ∀ y, y ∈ known.keys ↔ y ∈ inp.known.keys) {v : α → K} (hv : (inp.withKnown known).Solves fl.nonneg v 0) :
    lin inp.objective v ≤ P.certAt false Z I E v := by
  have hcl := clean_start hok (fl := fl) (by simp [hf]) (by simp [hf])
  have hs : start fl inp = ⟨baseVars inp, inp.masks.map fun t => (t.1, some t.2), inp.objective, inp.ineqs, inp.eqs⟩ := by
    unfold start; rw [hf]; rfl
  rw [prep_eq] at h
  have hP := final_of hcl h
  have hvars := vars_spec hP hok (fun y => by rw [hs])
  have hsem : Semi inp.semiknown v := hv.semi
  have hb := bound_core hP hD (v := v) ((hP.ineqs v hsem).2 (by rw [hs]; exact hv.ineq)) ((hP.eqs v hsem).2 (by rw [hs]; exact hv.eq))
    (by
      have : (fun i j => gsum (fun F : Mat n K => F i j) P.masks v) = fun i j => inp.momentMatrix v i j - if i = j then 0 else 0 := by
        funext i j
        rw [hP.masks v hsem i j, hs]
        simp only [gsum_some, Input.momentMatrix, ite_self, sub_zero]
      rw [this]
      exact hv.psd)
    (fun hn y hy => hv.sign hn y ((unknown_withKnown hk y).2 ((hvars y).1 hy).1))
  rw [hP.objective v hsem, hs] at hb
  refine hb.trans (le_of_eq ?_)
  unfold Prep.certAt
  rw [hP.known_eq, cert_sum inp.known hok.known]
  refine Finset.sum_congr rfl fun y hy => ?_
  rw [certEntry_eq hno Z I E (by simp) (by rw [hP.known_eq]; exact List.mem_toFinset.1 hy)]

/-- **C31, SDP feasibility as optimisation.** The certificate evaluated at any known values bounds the largest `λ` with `Γ - λ·1 ⪰ 0` from
above. -/
theorem C31_sdp_feasibility_certificate {fl : Flags α} {inp : Input α K n} (hok : inp.Ok) (hf : fl.feas = true) (hfr : fl.Fresh inp)
    (hm : inp.masks ≠ []) {P : Prep α K n} (h : prep fl inp = some P) {Z : Mat n K} {I E : Nat → K} (hD : P.Dual false Z I E)
    {known : Dict α K} {v : α → K} {s : K} (hv : (inp.withKnown known).Solves false v s) :
    s ≤ P.certAt true Z I E v := by
  have hcl := clean_start hok (fun _ => hfr) (fun _ => hm)
  have he : inp.masks.isEmpty = false := by simpa using hm
  have hs : start fl inp = ⟨baseVars inp ++ [lamName fl (baseVars inp)], Dict.set (inp.masks.map fun t => (t.1, some t.2)) (lamName fl (baseVars inp)) (some minusOne),
      [(lamName fl (baseVars inp), 1)], inp.ineqs, inp.eqs⟩ := by
    unfold start; rw [hf, he]; rfl
  rw [prep_eq] at h
  have hP := final_of hcl h
  have hlam := lamName_notMem hfr.inj (baseVars inp)
  obtain ⟨k, hk⟩ : ∃ k, lamName fl (baseVars inp) = fl.lam k := ⟨_, rfl⟩
  set lam := lamName fl (baseVars inp) with hlamdef
  have hlk : lam ∉ inp.known.keys := by rw [hk]; exact hfr.known k
  have hls : ∀ s ∈ inp.semiknown, lam ≠ s.1 ∧ lam ≠ s.2.2 := by rw [hk]; exact hfr.semi k
  have hlm : lam ∉ inp.masks.keys := fun hm => hlam ((mem_baseVars _ _).2 ⟨hlk, .inl hm⟩)
  have hobj : P.objective = [(lam, 1)] := by
    have := h
    unfold prepFrom at this
    obtain ⟨w', hw', h'⟩ := Option.bind_eq_some_iff.1 this
    have hob : w'.objective = [(lam, 1)] := by
      cases hp : fl.process with
      | true =>
        rw [hp] at hw'
        simp only [if_true] at hw'
        obtain ⟨_, _, e3, _⟩ := elimAll_spec _ _ _ _ _ hw'
        rcases e3 with ⟨e3, _⟩ | ⟨_, e3, _⟩
        · rw [e3, hs]
        · rw [hf] at e3; exact absurd e3 (by simp)
      | false =>
        rw [hp] at hw'
        simp only [Bool.false_eq_true, if_false, Option.some.injEq] at hw'
        subst hw'
        rw [(keepAll_spec _ _).2.2.1, hs]
    split at h'
    · obtain ⟨Fi, _, rfl⟩ := Option.map_eq_some_iff.1 h'
      exact hob
    · exact absurd h' (by simp)
  -- the values with the additional variable
  let u : α → K := fun y => if y = lam then s else v y
  have hne : ∀ y, y ≠ lam → u y = v y := fun y hy => by simp [u, hy]
  have hul : u lam = s := by simp [u]
  have hsem : Semi inp.semiknown u := by
    intro t ht
    rw [hne t.1 (hls t ht).1.symm, hne t.2.2 (hls t ht).2.symm]
    exact hv.semi t ht
  have hlin : ∀ d ∈ inp.ineqs ++ inp.eqs, lin d u = lin d v := by
    intro d hd
    refine lin_congr d _ _ fun y hy => hne y ?_
    rintro rfl
    rcases List.mem_append.1 hd with hd | hd
    · exact hlam ((mem_baseVars _ _).2 ⟨hlk, .inr (.inr (.inr ⟨d, hd, hy⟩))⟩)
    · exact hlam ((mem_baseVars _ _).2 ⟨hlk, .inr (.inr (.inl ⟨d, hd, hy⟩))⟩)
  have hb := bound_core hP hD (v := u)
    ((hP.ineqs u hsem).2 (by rw [hs]; intro d hd; rw [hlin d (List.mem_append_left _ hd)]; exact hv.ineq d hd))
    ((hP.eqs u hsem).2 (by rw [hs]; intro d hd; rw [hlin d (List.mem_append_right _ hd)]; exact hv.eq d hd))
    (by
      have hmm : inp.momentMatrix u = inp.momentMatrix v := by
        funext i j
        unfold Input.momentMatrix
        congr 1
        apply List.map_congr_left
        intro t ht
        rw [hne t.1 fun e => hlm (e ▸ List.mem_map.2 ⟨t, ht, rfl⟩)]
      have : (fun i j => gsum (fun F : Mat n K => F i j) P.masks u) = fun i j => inp.momentMatrix v i j - if i = j then s else 0 := by
        funext i j
        rw [hP.masks u hsem i j, hs]
        simp only
        rw [gsum_set _ none rfl, gsum_some]
        have hg : Dict.get (inp.masks.map fun t => (t.1, some t.2)) lam = none := (get_none _ _).2 (by rw [keys_some]; exact hlm)
        rw [hg, hul, ← hmm]
        simp only [Option.getD_none, entry, minusOne, Input.momentMatrix]
        split <;> ring
      rw [this]
      exact hv.psd)
    (by simp)
  have hobjv : lin P.objective u = s := by
    rw [hobj]
    simp [lin, hul]
  rw [hobjv] at hb
  refine hb.trans (le_of_eq ?_)
  have hzero : ∀ y ∈ P.known.keys, (Dict.get P.objective y).getD 0 = 0 := by
    intro y hy
    rw [hobj]
    rw [hP.known_eq] at hy
    have : ¬ lam = y := fun e => hlk (e ▸ hy)
    simp [get_cons, this]
  unfold Prep.certAt
  rw [hP.known_eq, cert_sum inp.known hok.known]
  refine Finset.sum_congr rfl fun y hy => ?_
  rw [List.mem_toFinset] at hy
  rw [certEntry_eq (fun y hy _ => hzero y hy) Z I E (fun _ => hzero) (by rw [hP.known_eq]; exact hy), hne y fun e => hlk (e ▸ hy)]

/-- **C31, SDP.** If the certificate of a feasibility problem solved as an optimisation is negative at some known values, no assignment of
values to the moments satisfies the program with these known values. -/
theorem C31_sdp_negative_is_incompatible {fl : Flags α} {inp : Input α K n} (hok : inp.Ok) (hf : fl.feas = true) (hfr : fl.Fresh inp)
    (hm : inp.masks ≠ []) {P : Prep α K n} (h : prep fl inp = some P) {Z : Mat n K} {I E : Nat → K} (hD : P.Dual false Z I E)
    {known : Dict α K} (hk : known.keys = inp.known.keys) (hn : known.keys.Nodup)
    (hneg : P.certAt true Z I E (fun y => (Dict.get known y).getD 0) < 0) : ¬ ∃ v, (inp.withKnown known).Solves false v 0 := by
  rintro ⟨v, hv⟩
  have h1 := C31_sdp_feasibility_certificate hok hf hfr hm h hD hv
  have hPk : P.known = inp.known := (final_of (clean_start hok (fun _ => hfr) (fun _ => hm)) (by rw [← prep_eq]; exact h)).known_eq
  have : P.certAt true Z I E v = P.certAt true Z I E (fun y => (Dict.get known y).getD 0) := by
    unfold Prep.certAt
    congr 1
    apply List.map_congr_left
    intro t ht
    have hmem : t.1 ∈ known.keys := by rw [hk, ← hPk]; exact List.mem_map.2 ⟨t, ht, rfl⟩
    rw [(get_known hn (v := v)).2 hv.known t.1 hmem]
  rw [this] at h1
  exact absurd h1 (not_le.2 hneg)

omit [IsStrictOrderedRing K] in
/-- **C31, SDP.** Deleting the entries within `tol` of zero changes the value of the certificate by at most `tol` times the sum of the
absolute values of the known moments. -/
theorem C31_sdp_dictionary_close [IsStrictOrderedRing K] (P : Prep α K n) (feas : Bool) (tol : K) (htol : 0 ≤ tol) (Z : Mat n K) (I E : Nat → K) (v : α → K) :
    |certValue (P.certificate feas (fun c => decide (|c| ≤ tol)) Z I E) v - P.certAt feas Z I E v| ≤ tol * (P.known.map fun t => |v t.1|).sum := by
  unfold certValue Prep.certificate Prep.certAt lin
  generalize P.certEntry feas Z I E = f
  induction P.known with
  | nil => simp
  | cons t l ih =>
    simp only [List.map_cons, List.sum_cons, mul_add, List.filter_cons]
    by_cases hc : |f t.1| ≤ tol
    · simp only [hc, decide_true, Bool.not_true, Bool.false_eq_true, if_false]
      have h1 : |f t.1 * v t.1| ≤ tol * |v t.1| := by
        rw [abs_mul]; exact mul_le_mul_of_nonneg_right hc (abs_nonneg _)
      calc _ = |(((l.map fun t => (t.1, f t.1)).filter fun t => !decide (|t.2| ≤ tol)).map fun t => t.2 * v t.1).sum - (l.map fun t => f t.1 * v t.1).sum - f t.1 * v t.1| := by congr 1; ring
        _ ≤ _ := abs_sub _ _
        _ ≤ _ := by linarith
    · simp only [hc, decide_false, Bool.not_false, if_true, List.map_cons, List.sum_cons]
      have h1 : 0 ≤ tol * |v t.1| := mul_nonneg htol (abs_nonneg _)
      calc _ = |(((l.map fun t => (t.1, f t.1)).filter fun t => !decide (|t.2| ≤ tol)).map fun t => t.2 * v t.1).sum - (l.map fun t => f t.1 * v t.1).sum| := by congr 1; ring
        _ ≤ _ := ih
        _ ≤ _ := by linarith

/-! ### The reported moment matrix -/

omit [IsStrictOrderedRing K] in
/-- **C49.** When the primal is solved, the reported matrix is the moment matrix of a solution with the reported values. -/
theorem C49_primal_matrix_partial [IsStrictOrderedRing K] {fl : Flags α} {inp : Input α K n} (hok : inp.Ok) (hf : fl.feas = false)
    {P : Prep α K n} (h : prep fl inp = some P) {x : α → K} {G : Mat n K} (hG : P.Primal fl.nonneg x G) :
    ∃ v, (∀ t ∈ inp.known, v t.1 = t.2) ∧ (∀ s ∈ inp.semiknown, v s.1 = s.2.1 * v s.2.2) ∧ (∀ y ∈ P.vars, v y = x y) ∧
      reportedPrimal G = inp.momentMatrix v := by
  have hcl := clean_start hok (fl := fl) (by simp [hf]) (by simp [hf])
  have hs : start fl inp = ⟨baseVars inp, inp.masks.map fun t => (t.1, some t.2), inp.objective, inp.ineqs, inp.eqs⟩ := by
    unfold start; rw [hf]; rfl
  rw [prep_eq] at h
  have hP := final_of hcl h
  obtain ⟨v, hv, hx, _⟩ := (core hcl h fl.nonneg x).1.1 ⟨G, hG⟩
  refine ⟨v, (get_known hok.known).1 hv.known, hv.semi, hx, ?_⟩
  have hmm : ∀ i j, P.gamma x i j = inp.momentMatrix v i j := by
    intro i j
    rw [gamma_eq hcl hP, Input.momentMatrix, ← gsum_some, ← show (start fl inp).masks = inp.masks.map fun t => (t.1, some t.2) by rw [hs], ← hP.masks v hv.semi i j]
    exact gsum_congr _ _ _ _ fun y hy => over_of_known hv.known x fun hk => hx y (hP.masks_vars y hy hk)
  have hsy : ∀ i j, inp.momentMatrix v i j = inp.momentMatrix v j i := by
    intro i j
    unfold Input.momentMatrix
    congr 1
    apply List.map_congr_left
    intro t ht
    rw [hok.symm t ht i j]
  funext i j
  unfold reportedPrimal
  rcases le_total i j with hij | hij
  · rw [hG.upper i j hij, hmm]
  · rw [hG.psd.symm i j, hG.upper j i hij, hmm, hsy]

omit [IsStrictOrderedRing K] in
/-- **C49 fails when the dual is solved** (the default): the reported matrix is the constant part, whatever the values of the moments. -/
theorem C49_dual_matrix_ignores_values [IsStrictOrderedRing K] {fl : Flags α} {inp : Input α K n} (hok : inp.Ok) (hfr : fl.feas = true → fl.Fresh inp) (hm : fl.feas = true → inp.masks ≠ [])
    {P : Prep α K n} (h : prep fl inp = some P) (x : α → K) : P.reportedDual x = P.F0 := by
  have hP := final_of (clean_start hok hfr hm) (by rw [← prep_eq]; exact h)
  funext i j
  unfold Prep.reportedDual
  have : ((P.masks.filter fun t => !decide (t.1 ∈ P.vars)).filter fun t => !has P.known t.1) = [] := by
    rw [List.filter_filter, List.filter_eq_nil_iff]
    intro t ht hc
    simp only [Bool.and_eq_true, Bool.not_eq_true', decide_eq_false_iff_not] at hc
    apply hc.2
    apply hP.masks_vars t.1 (List.mem_map.2 ⟨t, ht, rfl⟩)
    intro hk
    have := (has_iff P.known t.1).2 (by rw [hP.known_eq]; exact hk)
    rw [hc.1] at this
    exact absurd this (by simp)
  rw [this]
  simp

end Verif.SdpSolver
