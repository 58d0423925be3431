import Verif.Certificates.Report
import Verif.Certificates.CleanProps

/-!
# C50: what is reported as the certificate

`certValue dual x` is the value of the solver's certificate when the moment named `k` has value `x k`.
-/

namespace Verif.Certificates

set_option linter.unusedSectionVars false

variable {κ : Type} [DecidableEq κ] {K : Type} [Field K] [LinearOrder K] [IsStrictOrderedRing K] [FloorRing K]

/-- The value of a dictionary keyed by moments. -/
def polyValue (d : List (MonObj κ × K)) (val : κ → K) : K := (d.map fun t => t.2 * val t.1.key).sum

/-- The names in the certificate denote existing moments, different names denote moments that differ
as dictionary keys, and moments that are zero have value zero. -/
structure NamesOk (lookup : String → Option (MonObj κ)) (names : List String) (x : String → K) (val : κ → K) : Prop where
  nodup : names.Nodup
  found : ∀ n ∈ names, ∃ m, lookup n = some m ∧ x n = val m.key ∧ (m.isZero = true → val m.key = 0)
  distinct : ∀ n ∈ names, ∀ n' ∈ names, ∀ m m', lookup n = some m → lookup n' = some m' → m.key = m'.key → n = n'

theorem upsert_append (f : K → K) (v0 : K) (k : MonObj κ) (d : List (MonObj κ × K))
    (h : ∀ t ∈ d, t.1.key ≠ k.key) : upsert f v0 k d = d ++ [(k, f v0)] := by
  induction d with
  | nil => rfl
  | cons t d ih =>
    obtain ⟨k', v⟩ := t
    unfold upsert
    rw [if_neg (h (k', v) (List.mem_cons_self ..)), ih fun t ht => h t (List.mem_cons_of_mem _ ht)]
    rfl

theorem foldl_upsert (g : K → K → K) (items acc : List (MonObj κ × K))
    (hn : ((acc ++ items).map fun t => t.1.key).Nodup) :
    items.foldl (fun d t => upsert (fun v => g v t.2) 0 t.1 d) acc =
      acc ++ items.map fun t => (t.1, g 0 t.2) := by
  induction items generalizing acc with
  | nil => simp
  | cons t items ih =>
    rw [List.foldl_cons, upsert_append]
    · rw [ih]
      · simp
      · simpa [List.append_assoc] using hn
    · intro u hu he
      simp only [List.map_append, List.map_cons, List.nodup_append] at hn
      exact hn.2.2 _ (List.mem_map.mpr ⟨u, hu, rfl⟩) _ (List.mem_cons_self ..) he

/-- With distinct keys, `_sanitise_dict` only drops tiny entries. -/
theorem sanitise_eq (d : List (MonObj κ × K)) (hn : (d.map fun t => t.1.key).Nodup) :
    sanitise d = d.filter fun t => !close0 t.2 := by
  unfold sanitise
  have := foldl_upsert (fun v w => v + w) (d.filter fun t => !close0 t.2) []
    (by
      rw [List.nil_append]
      exact (List.filter_sublist.map _).nodup hn)
  rw [this]
  simp

theorem mapM_lookup {lookup : String → Option (MonObj κ)} {dual : List (String × K)}
    (h : ∀ t ∈ dual, ∃ m, lookup t.1 = some m) :
    ∃ items, (dual.mapM fun t => (lookup t.1).map fun m => (m, t.2)) = some items ∧
      List.Forall₂ (fun t i => lookup t.1 = some i.1 ∧ i.2 = t.2) dual items := by
  induction dual with
  | nil => exact ⟨[], rfl, List.Forall₂.nil⟩
  | cons t dual ih =>
    obtain ⟨m, hm⟩ := h t (List.mem_cons_self ..)
    obtain ⟨items, h1, h2⟩ := ih fun u hu => h u (List.mem_cons_of_mem _ hu)
    refine ⟨(m, t.2) :: items, ?_, List.Forall₂.cons ⟨hm, rfl⟩ h2⟩
    rw [List.mapM_cons, hm, h1]
    rfl

theorem forall₂_mem_right {A B : Type} {R : A → B → Prop} {l : List A} {r : List B} (h : List.Forall₂ R l r) :
    ∀ b ∈ r, ∃ a ∈ l, R a b := by
  induction h with
  | nil => simp
  | cons hab _ ih =>
    intro b hb
    rcases List.mem_cons.mp hb with rfl | hb
    · exact ⟨_, List.mem_cons_self .., hab⟩
    · obtain ⟨a, ha, hr⟩ := ih b hb
      exact ⟨a, List.mem_cons_of_mem _ ha, hr⟩

theorem items_nodup {lookup : String → Option (MonObj κ)} {dual : List (String × K)} {items : List (MonObj κ × K)} {x : String → K} {val : κ → K}
    (hok : NamesOk lookup (dual.map Prod.fst) x val)
    (h : List.Forall₂ (fun t i => lookup t.1 = some i.1 ∧ i.2 = t.2) dual items) :
    (items.map fun t => t.1.key).Nodup := by
  have hnd := hok.nodup
  have hd := hok.distinct
  clear hok
  induction h with
  | nil => simp
  | @cons t i l r hti hrest ih =>
    simp only [List.map_cons, List.nodup_cons] at hnd ⊢
    refine ⟨?_, ih hnd.2 fun n hn n' hn' => hd n (List.mem_cons_of_mem _ hn) n' (List.mem_cons_of_mem _ hn')⟩
    intro hmem
    obtain ⟨j, hj, he⟩ := List.mem_map.mp hmem
    obtain ⟨u, hu, hlu, -⟩ := forall₂_mem_right hrest j hj
    have hu' : u.1 ∈ l.map Prod.fst := List.mem_map.mpr ⟨u, hu, rfl⟩
    have := hd t.1 (List.mem_cons_self ..) u.1 (List.mem_cons_of_mem _ hu') _ _ hti.1 hlu he.symm
    exact hnd.1 (this ▸ hu')

/-- What `certificate_as_dict` does to a dictionary of coefficients once it is cleaned. -/
theorem report_core {lookup : String → Option (MonObj κ)} {dual : List (String × K)} {x : String → K} {val : κ → K}
    (hok : NamesOk lookup (dual.map Prod.fst) x val) :
    ∃ items, (dual.mapM fun t => (lookup t.1).map fun m => (m, t.2)) = some items ∧
      List.Forall₂ (fun t i => lookup t.1 = some i.1 ∧ i.2 = t.2) dual items ∧
      (items.filter fun t => !t.1.isZero).foldl (fun d t => upsert (fun _ => t.2) 0 t.1 d) [] =
        items.filter fun t => !t.1.isZero := by
  obtain ⟨items, h1, h2⟩ := mapM_lookup (lookup := lookup) (dual := dual) (by
    intro t ht
    obtain ⟨m, hm, -⟩ := hok.found t.1 (List.mem_map.mpr ⟨t, ht, rfl⟩)
    exact ⟨m, hm⟩)
  refine ⟨items, h1, h2, ?_⟩
  have := foldl_upsert (fun _ w => w) (items.filter fun t => !t.1.isZero) []
    (by
      rw [List.nil_append]
      exact (List.filter_sublist.map _).nodup (items_nodup hok h2))
  rw [this]
  simp

theorem value_core {lookup : String → Option (MonObj κ)} {dual : List (String × K)} {items : List (MonObj κ × K)} {x : String → K} {val : κ → K}
    (hok : NamesOk lookup (dual.map Prod.fst) x val)
    (h : List.Forall₂ (fun t i => lookup t.1 = some i.1 ∧ i.2 = t.2) dual items) :
    polyValue (items.filter fun t => !t.1.isZero) val = certValue dual x := by
  have hf := hok.found
  clear hok
  induction h with
  | nil => rfl
  | @cons t i l r hti hrest ih =>
    have ih' := ih fun n hn => hf n (List.mem_cons_of_mem _ hn)
    obtain ⟨m, hm, hx, hz⟩ := hf t.1 (List.mem_cons_self ..)
    obtain rfl : m = i.1 := Option.some.inj (hm.symm.trans hti.1)
    have e : certValue (t :: l) x = t.2 * x t.1 + certValue l x := by simp [certValue]
    rw [e, ← ih', List.filter_cons]
    cases hb : i.1.isZero with
    | true =>
      have : x t.1 = 0 := hx.trans (hz hb)
      simp [this]
    | false =>
      simp only [Bool.not_false, if_true, polyValue, List.map_cons, List.sum_cons, hti.2, hx]

/-- **C50.**  Without cleaning, the reported dictionary has exactly the value of the solver's
certificate, for every values of the moments, provided different names denote different moments (and
the certificate is not numerically zero, in which case the empty dictionary is reported). -/
theorem C50_report_exact {lookup : String → Option (MonObj κ)} {dual : List (String × K)} {x : String → K}
    {val : κ → K} (hok : NamesOk lookup (dual.map Prod.fst) x val) (tol : K) (d : Int)
    (hnz : ∃ t ∈ dual, 1 / 10 ^ 8 < |t.2|) :
    ∃ out, certificateAsDict lookup dual false tol d = some out ∧ polyValue out val = certValue dual x := by
  obtain ⟨items, h1, h2, h3⟩ := report_core hok
  refine ⟨_, ?_, value_core hok h2⟩
  unfold certificateAsDict
  have : ¬ dual.all (fun t => close0 t.2) = true := by
    obtain ⟨t, ht, hlt⟩ := hnz
    rw [List.all_eq_true]
    intro hall
    have := of_decide_eq_true (hall t ht)
    rw [absK_eq] at this
    exact absurd hlt (not_lt.mpr this)
  rw [if_neg this]
  simp only [Bool.false_eq_true, if_false, Option.bind_some, h1, Option.map_some, h3]

theorem clean_names {cert out : List (String × K)} {tol : K} {d : Int} (h : cleanCoefficients cert tol d = some out) :
    out.map Prod.fst = cert.map Prod.fst := by
  obtain ⟨s, -, hF⟩ := C36_scaled_and_rounded h
  clear h
  induction hF with
  | nil => rfl
  | cons hab _ ih => rw [List.map_cons, List.map_cons, hab.1, ih]

theorem polyValue_filter_close (d : List (MonObj κ × K)) (val : κ → K)
    (h : ∀ t ∈ d, close0 t.2 = true → t.2 = 0) :
    polyValue (d.filter fun t => !close0 t.2) val = polyValue d val := by
  induction d with
  | nil => rfl
  | cons t d ih =>
    have ih' := ih fun u hu => h u (List.mem_cons_of_mem _ hu)
    rw [List.filter_cons]
    cases hb : close0 t.2 with
    | true =>
      have := h t (List.mem_cons_self ..) hb
      simp only [Bool.not_true, Bool.false_eq_true, if_false, ih']
      simp [polyValue, this]
    | false =>
      simp only [Bool.not_false, if_true]
      simp only [polyValue, List.map_cons, List.sum_cons] at ih' ⊢
      rw [ih']

theorem evaluate_of_nodup (d : List (MonObj κ × K)) (val : κ → K) (hn : (d.map fun t => t.1.key).Nodup)
    (hz : ∀ t ∈ d, t.1.isZero = false) :
    evaluatePolynomial d val = polyValue (d.filter fun t => !close0 t.2) val := by
  unfold evaluatePolynomial polyValue
  rw [sanitise_eq d hn]
  congr 1
  apply List.map_congr_left
  intro t ht
  rw [hz t (List.mem_filter.mp ht).1]
  simp [mul_comm]

/-- Rounded to three decimals, a number close to zero is zero. -/
theorem rounded_close0 (c : K) (h : close0 (roundDec 3 c) = true) : roundDec 3 c = 0 := by
  have h1 := of_decide_eq_true h
  rw [absK_eq] at h1
  unfold roundDec at h1 ⊢
  generalize rint (c * (10 : K) ^ (3 : Int)) = n at h1 ⊢
  have hp : ((10 : K) ^ (3 : Int)) = 1000 := by norm_num
  rw [hp] at h1 ⊢
  rw [abs_div, abs_of_pos (by norm_num : (0 : K) < 1000), div_le_iff₀ (by norm_num)] at h1
  have h2 : |(n : K)| < 1 := lt_of_le_of_lt h1 (by norm_num)
  have h3 : |n| < 1 := by exact_mod_cast h2
  have : n = 0 := Int.abs_lt_one_iff.mp h3
  simp [this]

/-- **C50.**  `evaluate_certificate` never fails when the names denote distinct moments, and returns a
positive multiple of the value of the solver's certificate up to `1/2000` per term, for every values
of the moments between minus one and one. -/
theorem C50_evaluate_close {lookup : String → Option (MonObj κ)} {dual : List (String × K)} {x : String → K}
    {val : κ → K} (hok : NamesOk lookup (dual.map Prod.fst) x val) (hx : ∀ n, |x n| ≤ 1) :
    ∃ s : K, 0 < s ∧ ∃ e : K, evaluateCertificate lookup dual val = some e ∧
      |e - certValue dual x / s| ≤ (dual.length : K) * (1 / 2000) := by
  by_cases hall : dual.all (fun t => close0 t.2) = true
  · refine ⟨1, one_pos, 0, ?_, ?_⟩
    · unfold evaluateCertificate certificateAsDict
      rw [if_pos hall]
      rfl
    · rw [div_one, zero_sub, abs_neg]
      clear hok
      induction dual with
      | nil => simp [certValue]
      | cons t l ih =>
        rw [List.all_cons, Bool.and_eq_true] at hall
        have e : certValue (t :: l) x = t.2 * x t.1 + certValue l x := by simp [certValue]
        have e2 : (((t :: l).length : Nat) : K) * (1 / 2000) = 1 / 2000 + ((l.length : Nat) : K) * (1 / 2000) := by
          rw [List.length_cons]; push_cast; ring
        rw [e, e2]
        refine (abs_add_le _ _).trans (add_le_add ?_ (ih hall.2))
        have h1 := of_decide_eq_true hall.1
        rw [absK_eq] at h1
        rw [abs_mul]
        calc |t.2| * |x t.1| ≤ |t.2| * 1 := mul_le_mul_of_nonneg_left (hx _) (abs_nonneg _)
          _ ≤ 1 / 2000 := by rw [mul_one]; exact h1.trans (by norm_num)
  · cases hc : cleanCoefficients dual (1 / 10 ^ 10) 3 with
    | none =>
      exfalso
      have := (C36_fails_iff.mp hc).2
      apply hall
      rw [List.all_eq_true]
      intro t ht
      have h1 := this t ht
      have h2 : |(1 / 10 ^ 10 : K)| = 1 / 10 ^ 10 := abs_of_pos (by positivity)
      rw [h2] at h1
      unfold close0
      rw [absK_eq]
      exact decide_eq_true (h1.trans (by norm_num))
    | some cl =>
      obtain ⟨s, hs, hv⟩ := C36_value_close hc
      refine ⟨s, hs, certValue cl x, ?_, ?_⟩
      · have hok' : NamesOk lookup (cl.map Prod.fst) x val := by rw [clean_names hc]; exact hok
        obtain ⟨items, h1, h2, h3⟩ := report_core hok'
        unfold evaluateCertificate certificateAsDict
        rw [if_neg hall]
        simp only [if_true, hc, Option.bind_some, h1, Option.map_some, h3]
        congr 1
        rw [evaluate_of_nodup _ _ ((List.filter_sublist.map _).nodup (items_nodup hok' h2))]
        · rw [polyValue_filter_close, value_core hok' h2]
          intro t ht hcl
          obtain ⟨u, hu, -, hu2⟩ := forall₂_mem_right h2 t (List.mem_filter.mp ht).1
          have hne : dual ≠ [] := by rintro rfl; exact hall rfl
          obtain ⟨s', -, rfl⟩ := clean_inv hc hne
          obtain ⟨kc, -, rfl⟩ := List.mem_map.mp hu
          rw [hu2] at hcl ⊢
          exact rounded_close0 _ hcl
        · intro t ht
          have := (List.mem_filter.mp ht).2
          simpa using this
      · refine (hv x hx).trans (le_of_eq ?_)
        congr 1
        have h2 : |(1 / 10 ^ 10 : K)| = 1 / 10 ^ 10 := abs_of_pos (by positivity)
        rw [h2, max_eq_right (by norm_num)]
        norm_num

/-! ### The printed string -/

/-- The value of what is printed: a missing coefficient is read as one. -/
def partsValue (p : Option K × List (Term κ K)) (val : κ → K) : K :=
  p.1.getD 0 + (p.2.map fun t => (if t.plus then 1 else -1) * t.coeff.getD 1 * val t.mon.key).sum

/-- **C50.**  The printed expression has the value of the dictionary, when the dictionary has no
tiny entries, no coefficient that is almost but not exactly plus or minus one, and the unit has value
one (such as cleaned certificates with three decimals). -/
theorem C50_string_exact (one : κ) (d : List (MonObj κ × K)) (val : κ → K)
    (hn : (d.map fun t => t.1.key).Nodup) (hone : val one = 1)
    (hz : ∀ t ∈ d, t.1.isZero = true → val t.1.key = 0)
    (ht : ∀ t ∈ d, close0 t.2 = true → t.2 = 0) (h1 : ∀ t ∈ d, close1 (absK t.2) = true → |t.2| = 1) :
    partsValue (stringParts one d) val = polyValue d val := by
  have hkey : ∀ l : List (MonObj κ × K), (l.map fun t => t.1.key).Nodup →
      (match l.find? (fun t => decide (t.1.key = one)) with | some t => t.2 | none => 0) +
        polyValue (l.filter fun t => !decide (t.1.key = one)) val = polyValue l val := by
    intro l hl
    induction l with
    | nil => simp [polyValue]
    | cons t l ih =>
      simp only [List.map_cons, List.nodup_cons] at hl
      by_cases hk : t.1.key = one
      · have hrest : l.filter (fun t => !decide (t.1.key = one)) = l := by
          rw [List.filter_eq_self]
          intro u hu
          have : u.1.key ≠ one := fun e => hl.1 (List.mem_map.mpr ⟨u, hu, e.trans hk.symm⟩)
          simp [this]
        rw [List.find?_cons_of_pos (by simp [hk]), List.filter_cons_of_neg (by simp [hk]), hrest]
        simp [polyValue, hk, hone]
      · rw [List.find?_cons_of_neg (by simp [hk]), List.filter_cons_of_pos (by simp [hk])]
        have := ih hl.2
        simp only [polyValue, List.map_cons, List.sum_cons] at this ⊢
        rw [← this]
        ring
  have hterms : ∀ l : List (MonObj κ × K), (∀ t ∈ l, t.1.isZero = true → val t.1.key = 0) →
      (∀ t ∈ l, close0 t.2 = true → t.2 = 0) → (∀ t ∈ l, close1 (absK t.2) = true → |t.2| = 1) →
      (((l.filter fun t => !(t.1.isZero || close0 (absK t.2))).map fun t =>
        (⟨decide (0 ≤ t.2), if close1 (absK t.2) then none else some (absK t.2), t.1⟩ : Term κ K)).map
          fun t => (if t.plus then 1 else -1) * t.coeff.getD 1 * val t.mon.key).sum = polyValue l val := by
    intro l hz ht h1
    induction l with
    | nil => rfl
    | cons t l ih =>
      have ih' := ih (fun u hu => hz u (List.mem_cons_of_mem _ hu)) (fun u hu => ht u (List.mem_cons_of_mem _ hu))
        (fun u hu => h1 u (List.mem_cons_of_mem _ hu))
      have habs : close0 (absK t.2) = close0 t.2 := by
        unfold close0; rw [absK_eq, absK_eq, abs_abs]
      have e : polyValue (t :: l) val = t.2 * val t.1.key + polyValue l val := by simp [polyValue]
      rw [e, ← ih', List.filter_cons]
      by_cases hb : (t.1.isZero || close0 (absK t.2)) = true
      · rw [if_neg (by simp [hb])]
        have : t.2 * val t.1.key = 0 := by
          rw [Bool.or_eq_true, habs] at hb
          rcases hb with hb | hb
          · rw [hz t (List.mem_cons_self ..) hb, mul_zero]
          · rw [ht t (List.mem_cons_self ..) hb, zero_mul]
        rw [this, zero_add]
      · rw [if_pos (by simpa using hb)]
        simp only [List.map_cons, List.sum_cons]
        congr 1
        have hc : (if close1 (absK t.2) = true then (none : Option K) else some (absK t.2)).getD 1 = |t.2| := by
          split
          · rename_i hcl
            rw [h1 t (List.mem_cons_self ..) hcl]; rfl
          · exact absK_eq _
        rw [hc]
        congr 1
        rcases le_or_gt 0 t.2 with h0 | h0
        · simp [h0, abs_of_nonneg h0]
        · simp [not_le.mpr h0, abs_of_neg h0]
  unfold partsValue stringParts
  simp only [sanitise_eq d hn]
  have hn' : ((d.filter fun t => !close0 t.2).map fun t => t.1.key).Nodup := (List.filter_sublist.map _).nodup hn
  rw [hterms _ (fun t h => hz t (List.mem_filter.mp (List.mem_filter.mp h).1).1)
    (fun t h => ht t (List.mem_filter.mp (List.mem_filter.mp h).1).1)
    (fun t h => h1 t (List.mem_filter.mp (List.mem_filter.mp h).1).1)]
  rw [← polyValue_filter_close d val ht, ← hkey _ hn']
  congr 1
  cases (d.filter fun t => !close0 t.2).find? (fun t => decide (t.1.key = one)) with
  | none => simp
  | some t =>
    by_cases h0 : t.2 = 0 <;> simp [h0]

/-- **C50, an empty certificate cannot be printed by the SDP class** (`IndexError`), although the LP
class prints `0`. -/
theorem C50_sdp_zero_string_raises (fmt : K → String) (one : κ) :
    stringFromDictSDP fmt one ([] : List (MonObj κ × K)) = none ∧
      stringFromDictLP fmt one ([] : List (MonObj κ × K)) = "0" := by
  constructor
  · simp [stringFromDictSDP, rawText, stringParts, sanitise, String.join]
  · simp [stringFromDictLP, rawText, stringParts, sanitise, String.join]

end Verif.Certificates
