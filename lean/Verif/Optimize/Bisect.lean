import Verif.Optimize.Model

/-!
# C37: maximisation by bisection

`O.objective v` is the objective value the program reports when the parameter is `v`; the search looks for
the place where it crosses `-precision/2048`.
-/

namespace Verif.Optimize

set_option linter.unusedSectionVars false

variable {K : Type} [Field K] [LinearOrder K] [IsStrictOrderedRing K] {γ : Type}

/-- the cached values are values of the function -/
def CacheOk (O : Oracle K γ) (precision : K) (st : BState K γ) : Prop :=
  ∀ t ∈ st.cache, t.2 = O.objective t.1 + precision / 2048

theorem cachedF_spec (O : Oracle K γ) (precision v : K) (st : BState K γ) (h : CacheOk O precision st) :
    (cachedF O precision v st).1 = O.objective v + precision / 2048 ∧
      CacheOk O precision (cachedF O precision v st).2 ∧
      (∀ t ∈ (cachedF O precision v st).2.cache, t.1 = v ∨ t ∈ st.cache) ∧
      ((∀ t ∈ st.cache, t.1 ≠ v) → (cachedF O precision v st).2.found =
        if (O.certificate v).isEmpty then st.found else st.found ++ [(v, O.certificate v)]) ∧
      ((∃ t ∈ st.cache, t.1 = v) → (cachedF O precision v st).2.found = st.found ∧
        ∀ t ∈ st.cache, t ∈ (cachedF O precision v st).2.cache ∨ t.1 = v) ∧
      (∃ t ∈ (cachedF O precision v st).2.cache, t.1 = v) := by
  unfold cachedF
  cases hf : st.cache.find? (fun t => decide (t.1 = v)) with
  | some t =>
    have hv : t.1 = v := by simpa using List.find?_some hf
    have hm := List.mem_of_find?_eq_some hf
    refine ⟨?_, ?_, ?_, ?_, ?_, ?_⟩
    · show t.2 = _
      rw [h t hm, hv]
    · intro u hu
      rcases List.mem_cons.mp hu with rfl | hu
      · exact h _ hm
      · exact h _ (List.mem_filter.mp hu).1
    · intro u hu
      rcases List.mem_cons.mp hu with rfl | hu
      · exact Or.inl hv
      · exact Or.inr (List.mem_filter.mp hu).1
    · intro hn
      exact absurd hv (hn t hm)
    · intro _
      refine ⟨rfl, fun u hu => ?_⟩
      by_cases hc : u.1 = v
      · exact Or.inr hc
      · exact Or.inl (List.mem_cons_of_mem _ (List.mem_filter.mpr ⟨hu, by simp [hc]⟩))
    · exact ⟨t, List.mem_cons_self .., hv⟩
  | none =>
    have hnone := List.find?_eq_none.mp hf
    refine ⟨rfl, ?_, ?_, ?_, ?_, ?_⟩
    · intro u hu
      have hu' := List.mem_of_mem_take hu
      rcases List.mem_cons.mp hu' with rfl | hu'
      · rfl
      · exact h _ hu'
    · intro u hu
      have hu' := List.mem_of_mem_take hu
      rcases List.mem_cons.mp hu' with rfl | hu'
      · exact Or.inl rfl
      · exact Or.inr hu'
    · intro _
      rfl
    · rintro ⟨t, ht, hv⟩
      exact absurd (by simpa using hv) (hnone t ht)
    · exact ⟨(v, (evalF O precision v st).1), by simp, rfl⟩

/-- The loop: a returned point is a root, or lies in a bracket of a sign change that extends at most the
tolerance to both sides; and the last recorded certificate is that of the returned point, if it has one. -/
theorem bisectLoop_spec (O : Oracle K γ) (precision xtol rtol : K) (k : Nat) (xa dm : K) (st : BState K γ)
    (hc : CacheOk O precision st) (hd : 0 < dm) (ha : 0 < O.objective xa + precision / 2048)
    (hb : O.objective (xa + dm) + precision / 2048 < 0) (hout : ∀ t ∈ st.cache, t.1 ≤ xa ∨ xa + dm ≤ t.1)
    {x : K} {st' : BState K γ}
    (h : bisectLoop (cachedF O precision) xtol rtol true k xa dm st = (some x, st')) :
    (O.objective x + precision / 2048 = 0 ∨ ∃ lo hi, lo < x ∧ x < hi ∧ x - lo < xtol + rtol * |x| ∧ hi - x < xtol + rtol * |x| ∧
        0 < O.objective lo + precision / 2048 ∧ O.objective hi + precision / 2048 < 0 ∧ xa ≤ lo ∧ hi ≤ xa + dm) ∧
      xa ≤ x ∧ x ≤ xa + dm ∧
      (O.certificate x ≠ [] → ∃ l, st'.found = l ++ [(x, O.certificate x)]) := by
  induction k generalizing xa dm st with
  | zero => simp [bisectLoop] at h
  | succ k ih =>
    unfold bisectLoop at h
    simp only at h
    obtain ⟨h1, h2, h3, h4, -, -⟩ := cachedF_spec O precision (xa + dm / 2) st hc
    have hd2 : 0 < dm / 2 := by positivity
    have hfresh : ∀ t ∈ st.cache, t.1 ≠ xa + dm / 2 := by
      intro t ht e
      rcases hout t ht with h | h <;> linarith
    rw [h1] at h
    split at h
    · rename_i hcond
      have e1 : xa + dm / 2 = x := Option.some.inj (Prod.mk.inj h).1
      have e2 := (Prod.mk.inj h).2
      have hx : xa ≤ x ∧ x ≤ xa + dm := by constructor <;> linarith
      refine ⟨?_, hx.1, hx.2, ?_⟩
      · rcases hcond with h0 | h0
        · exact Or.inl (by rw [← e1]; exact h0)
        · right
          rw [abs_of_pos hd2, e1] at h0
          exact ⟨xa, xa + dm, by linarith, by linarith, by linarith, by linarith, ha, hb, le_rfl, le_rfl⟩
      · intro hne
        rw [← e2, h4 hfresh, e1]
        have : (O.certificate x).isEmpty = false := by
          cases hcx : O.certificate x with
          | nil => exact absurd hcx hne
          | cons => rfl
        rw [this]
        exact ⟨_, rfl⟩
    · rename_i hcond
      push Not at hcond
      by_cases hp : 0 < O.objective (xa + dm / 2) + precision / 2048
      · simp only [hp, decide_true, if_true] at h
        have hlen : xa + dm / 2 + dm / 2 = xa + dm := by ring
        obtain ⟨i1, i2, i3, i4⟩ := ih (xa + dm / 2) (dm / 2) _ h2 hd2 hp (by rw [hlen]; exact hb)
          (by
            intro t ht
            rcases h3 t ht with e | ht'
            · exact Or.inl e.le
            · rcases hout t ht' with e | e
              · exact Or.inl (by linarith)
              · exact Or.inr (by rw [hlen]; exact e)) h
        refine ⟨?_, by linarith, by linarith, i4⟩
        rcases i1 with i1 | ⟨lo, hi, j1, j2, j3, j4, j5, j6, j7, j8⟩
        · exact Or.inl i1
        · exact Or.inr ⟨lo, hi, j1, j2, j3, j4, j5, j6, by linarith, by linarith⟩
      · have hlt : O.objective (xa + dm / 2) + precision / 2048 < 0 :=
          lt_of_le_of_ne (not_lt.mp hp) hcond.1
        simp only [hp, decide_false, Bool.false_eq_true, if_false] at h
        obtain ⟨i1, i2, i3, i4⟩ := ih xa (dm / 2) _ h2 hd2 ha hlt
          (by
            intro t ht
            rcases h3 t ht with e | ht'
            · exact Or.inr e.ge
            · rcases hout t ht' with e | e
              · exact Or.inl e
              · exact Or.inr (by linarith)) h
        refine ⟨?_, i2, by linarith, i4⟩
        rcases i1 with i1 | ⟨lo, hi, j1, j2, j3, j4, j5, j6, j7, j8⟩
        · exact Or.inl i1
        · exact Or.inr ⟨lo, hi, j1, j2, j3, j4, j5, j6, j7, by linarith⟩

theorem bisectLoop_converges (O : Oracle K γ) (precision xtol rtol : K) (hr : 0 ≤ rtol) (k : Nat) (xa dm : K) (st : BState K γ)
    (hd : 0 < dm) (hk : 0 < k) (hw : dm < 2 ^ k * xtol) :
    ∃ x st', bisectLoop (cachedF O precision) xtol rtol true k xa dm st = (some x, st') := by
  induction k generalizing xa dm st with
  | zero => omega
  | succ k ih =>
    unfold bisectLoop
    simp only
    split
    · exact ⟨_, _, rfl⟩
    · rename_i hcond
      push Not at hcond
      have hd2 : 0 < dm / 2 := by positivity
      have hsmall : dm / 2 < 2 ^ k * xtol := by
        rw [pow_succ] at hw
        linarith
      have hk' : 0 < k := by
        rcases Nat.eq_zero_or_pos k with rfl | hk'
        · exfalso
          have h2 := hcond.2
          rw [abs_of_pos hd2] at h2
          have : 0 ≤ rtol * |xa + dm / 2| := mul_nonneg hr (abs_nonneg _)
          simp only [pow_zero, one_mul] at hsmall
          linarith
        · exact hk'
      exact ih _ _ _ hd2 hk' hsmall

/-- Everything about a run that does not raise. -/
theorem bisect_run (O : Oracle K γ) (b0 b1 precision xtol rtol : K) (maxiter : Nat) (hp : 0 < precision) (hb : b0 < b1) :
    let r1 := cachedF O precision b1 ⟨[], []⟩
    let r0 := cachedF O precision b0 r1.2
    O.objective b1 + precision / 2048 + precision / 2048 < 0 →
    0 < O.objective b0 + precision / 2048 + precision / 2048 →
    ∀ {x st'}, bisect (cachedF O precision) b0 b1 xtol rtol maxiter r0.2 = (some x, st') →
      (O.objective x + precision / 2048 = 0 ∨ ∃ lo hi, lo < x ∧ x < hi ∧ x - lo < xtol + rtol * |x| ∧ hi - x < xtol + rtol * |x| ∧
        0 < O.objective lo + precision / 2048 ∧ O.objective hi + precision / 2048 < 0 ∧ b0 ≤ lo ∧ hi ≤ b1) ∧
      b0 ≤ x ∧ x ≤ b1 ∧ (O.certificate x ≠ [] → ∃ l, st'.found = l ++ [(x, O.certificate x)]) := by
  intro r1 r0 hneg hpos x st' h
  have hne : b0 ≠ b1 := ne_of_lt hb
  have ok0 : CacheOk O precision (⟨[], []⟩ : BState K γ) := by intro t ht; simp at ht
  obtain ⟨p1, p2, p3, p4, p5, p6⟩ := cachedF_spec O precision b1 ⟨[], []⟩ ok0
  obtain ⟨q1, q2, q3, q4, q5, q6⟩ := cachedF_spec O precision b0 r1.2 p2
  have hr1only : ∀ t ∈ r1.2.cache, t.1 = b1 := by
    intro t ht
    rcases p3 t ht with e | e
    · exact e
    · simp at e
  have hfound0 := q4 fun t ht => by rw [hr1only t ht]; exact hne.symm
  obtain ⟨u1, u2, u3, u4, u5, u6⟩ := cachedF_spec O precision b0 r0.2 q2
  obtain ⟨w1, w2, w3, w4, w5, w6⟩ := cachedF_spec O precision b1 (cachedF O precision b0 r0.2).2 u2
  have hb1in0 : ∃ t ∈ r0.2.cache, t.1 = b1 := by
    -- two entries fit in the cache
    have hmiss : r1.2.cache.find? (fun t => decide (t.1 = b0)) = none := by
      rw [List.find?_eq_none]
      intro t ht
      rw [hr1only t ht]
      simpa using hne.symm
    have hr1cache : r1.2.cache = [(b1, O.objective b1 + precision / 2048)] := rfl
    have : r0.2.cache = [(b0, O.objective b0 + precision / 2048), (b1, O.objective b1 + precision / 2048)] := by
      show (cachedF O precision b0 r1.2).2.cache = _
      unfold cachedF
      rw [hmiss, hr1cache]
      rfl
    exact ⟨(b1, O.objective b1 + precision / 2048), by rw [this]; simp, rfl⟩
  have hb1in : ∃ t ∈ (cachedF O precision b0 r0.2).2.cache, t.1 = b1 := by
    obtain ⟨t, ht, e⟩ := hb1in0
    rcases (u5 q6).2 t ht with ht' | e'
    · exact ⟨t, ht', e⟩
    · exact absurd (e'.symm.trans e) hne
  have hfoundF : (cachedF O precision b1 (cachedF O precision b0 r0.2).2).2.found = r0.2.found := by
    rw [(w5 hb1in).1, (u5 q6).1]
  unfold bisect at h
  simp only at h
  rw [u1, w1] at h
  have hlt1 : O.objective b1 + precision / 2048 < 0 := by
    have : 0 < precision / 2048 := by positivity
    linarith
  split at h
  · rename_i hz
    have e1 : b0 = x := Option.some.inj (Prod.mk.inj h).1
    have e2 := (Prod.mk.inj h).2
    subst e1
    refine ⟨Or.inl hz, le_rfl, hb.le, fun hne' => ?_⟩
    rw [← e2, hfoundF]
    have hemp : (O.certificate b0).isEmpty = false := by
      cases hcx : O.certificate b0 with
      | nil => exact absurd hcx hne'
      | cons => rfl
    show ∃ l, r0.2.found = _
    rw [show r0.2.found = _ from hfound0, hemp]
    exact ⟨_, rfl⟩
  · split at h
    · rename_i _ hz
      exact absurd hz hlt1.ne
    · split at h
      · simp at h
      · rename_i hz _ hs
        have hp1 : ¬ 0 < O.objective b1 + precision / 2048 := not_lt.mpr hlt1.le
        simp only [hp1, decide_false] at hs
        have hp0 : 0 < O.objective b0 + precision / 2048 := by
          by_contra hc
          exact hs (by simp [hc])
        simp only [hp0, decide_true] at h
        have hlen : b0 + (b1 - b0) = b1 := by ring
        have := bisectLoop_spec O precision xtol rtol maxiter b0 (b1 - b0) _ w2 (by linarith) hp0 (by rw [hlen]; exact hlt1)
          (by
            intro t ht
            rcases w3 t ht with e | e
            · exact Or.inr (by rw [hlen]; exact e.ge)
            · rcases u3 t e with e | e
              · exact Or.inl e.le
              · rcases q3 t e with e | e
                · exact Or.inl e.le
                · exact Or.inr (by rw [hlen]; exact (hr1only t e).ge)) h
        rw [hlen] at this
        exact this

/-- unfolding a successful call -/
theorem run_inv {O : Oracle K γ} {b0 b1 precision xtol rtol : K} {maxiter : Nat} {ret : Bool} {out : Outcome K γ}
    (h : maximizeViaBisect O b0 b1 precision xtol rtol maxiter ret = out) (hout : out ≠ .raised) :
    O.objective b1 + precision / 2048 + precision / 2048 < 0 ∧ 0 < O.objective b0 + precision / 2048 + precision / 2048 ∧
      ∃ x st', bisect (cachedF O precision) b0 b1 xtol rtol maxiter
          (cachedF O precision b0 (cachedF O precision b1 ⟨[], []⟩).2).2 = (some x, st') ∧
        ((ret = false ∧ out = .value x) ∨ (ret = true ∧ ∃ t, st'.found.getLast? = some t ∧ out = .withCertificate x t.2)) := by
  have ok0 : CacheOk O precision (⟨[], []⟩ : BState K γ) := by intro t ht; simp at ht
  obtain ⟨p1, p2, -⟩ := cachedF_spec O precision b1 ⟨[], []⟩ ok0
  obtain ⟨q1, q2, -⟩ := cachedF_spec O precision b0 (cachedF O precision b1 ⟨[], []⟩).2 p2
  unfold maximizeViaBisect at h
  simp only [p1, q1] at h
  split at h
  · exact absurd h.symm hout
  · rename_i h1
    split at h
    · exact absurd h.symm hout
    · rename_i h0
      refine ⟨not_not.mp h1, not_not.mp h0, ?_⟩
      split at h
      · exact absurd h.symm hout
      · rename_i x st' hbis
        refine ⟨x, st', hbis, ?_⟩
        cases ret with
        | false => exact Or.inl ⟨rfl, h.symm⟩
        | true =>
          right
          refine ⟨rfl, ?_⟩
          simp only [if_true] at h
          split at h
          · rename_i t ht
            exact ⟨t, ht, h.symm⟩
          · exact absurd h.symm hout

/-- The critical value of a successful call. -/
def Outcome.crit : Outcome K γ → Option K
  | .raised => none
  | .value x => some x
  | .withCertificate x _ => some x

theorem crit_inv {O : Oracle K γ} {b0 b1 precision xtol rtol : K} {maxiter : Nat} {ret : Bool} {x : K}
    (hp : 0 < precision) (hb : b0 < b1)
    (h : (maximizeViaBisect O b0 b1 precision xtol rtol maxiter ret).crit = some x) :
    (O.objective x + precision / 2048 = 0 ∨ ∃ lo hi, lo < x ∧ x < hi ∧ x - lo < xtol + rtol * |x| ∧ hi - x < xtol + rtol * |x| ∧
        0 < O.objective lo + precision / 2048 ∧ O.objective hi + precision / 2048 < 0 ∧ b0 ≤ lo ∧ hi ≤ b1) ∧
      b0 ≤ x ∧ x ≤ b1 := by
  have hne : maximizeViaBisect O b0 b1 precision xtol rtol maxiter ret ≠ .raised := by
    intro e; rw [e] at h; cases h
  obtain ⟨h1, h0, y, st', hy, hor⟩ := run_inv rfl hne
  have hxy : y = x := by
    rcases hor with ⟨-, e⟩ | ⟨-, t, -, e⟩ <;> rw [e] at h <;> exact Option.some.inj h
  subst hxy
  obtain ⟨a, b, c, -⟩ := bisect_run O b0 b1 precision xtol rtol maxiter hp hb h1 h0 hy
  exact ⟨a, b, c⟩

/-- **C37.**  Whatever the program answers (no monotonicity), a returned value lies in the search interval
and either hits the target level exactly or has, within the tolerance on its two sides, one parameter whose
objective is above and one whose objective is below the level `-precision/2048`. -/
theorem C37_brackets_sign_change {O : Oracle K γ} {b0 b1 precision xtol rtol : K} {maxiter : Nat} {ret : Bool} {x : K}
    (hp : 0 < precision) (hb : b0 < b1)
    (h : (maximizeViaBisect O b0 b1 precision xtol rtol maxiter ret).crit = some x) :
    b0 ≤ x ∧ x ≤ b1 ∧ (O.objective x = -(precision / 2048) ∨
      ∃ lo hi, b0 ≤ lo ∧ lo < x ∧ x < hi ∧ hi ≤ b1 ∧ x - lo < xtol + rtol * |x| ∧ hi - x < xtol + rtol * |x| ∧
        -(precision / 2048) < O.objective lo ∧ O.objective hi < -(precision / 2048)) := by
  obtain ⟨h1, h2, h3⟩ := crit_inv hp hb h
  refine ⟨h2, h3, ?_⟩
  rcases h1 with h1 | ⟨lo, hi, a, b, c, d, e, f, g, i⟩
  · exact Or.inl (by linarith)
  · exact Or.inr ⟨lo, hi, g, a, b, i, c, d, by linarith, by linarith⟩

/-- **C37.**  If the objective is above the level `-precision/2048` before a critical value `c` and below it
afterwards, the returned value is within the tolerance of `c`. -/
theorem C37_within_tolerance {O : Oracle K γ} {b0 b1 precision xtol rtol : K} {maxiter : Nat} {ret : Bool} {x c : K}
    (hp : 0 < precision) (hb : b0 < b1) (htol : 0 ≤ xtol) (hrtol : 0 ≤ rtol)
    (hlow : ∀ v, b0 ≤ v → v < c → -(precision / 2048) < O.objective v)
    (hhigh : ∀ v, v ≤ b1 → c < v → O.objective v < -(precision / 2048))
    (h : (maximizeViaBisect O b0 b1 precision xtol rtol maxiter ret).crit = some x) :
    |x - c| ≤ xtol + rtol * |x| := by
  obtain ⟨h2, h3, h1⟩ := C37_brackets_sign_change hp hb h
  rcases h1 with h1 | ⟨lo, hi, a, b, c', d, e, f, g, i⟩
  · have : x = c := by
      rcases lt_trichotomy x c with hl | hl | hl
      · exact absurd h1 (hlow x h2 hl).ne'
      · exact hl
      · exact absurd h1 (hhigh x h3 hl).ne
    rw [this, sub_self, abs_zero]
    exact add_nonneg htol (mul_nonneg hrtol (abs_nonneg _))
  · have hlo : lo ≤ c := by
      by_contra hc
      exact absurd (hhigh lo (by linarith) (not_le.mp hc)) (not_lt.mpr g.le)
    have hhi : c ≤ hi := by
      by_contra hc
      exact absurd (hlow hi (by linarith) (not_le.mp hc)) (not_lt.mpr i.le)
    rw [abs_le]
    constructor <;> linarith

/-- **C37.**  The returned value is never below a feasible range by more than the tolerance: if the program
is feasible (non-negative objective) at all parameters up to `v`, the returned value exceeds `v` minus the
tolerance. -/
theorem C37_never_below {O : Oracle K γ} {b0 b1 precision xtol rtol : K} {maxiter : Nat} {ret : Bool} {x v : K}
    (hp : 0 < precision) (hb : b0 < b1) (htol : 0 ≤ xtol) (hrtol : 0 ≤ rtol)
    (hfeas : ∀ u, b0 ≤ u → u ≤ v → 0 ≤ O.objective u)
    (h : (maximizeViaBisect O b0 b1 precision xtol rtol maxiter ret).crit = some x) :
    v - (xtol + rtol * |x|) < x := by
  have he : 0 < precision / 2048 := by positivity
  have ht : 0 ≤ xtol + rtol * |x| := add_nonneg htol (mul_nonneg hrtol (abs_nonneg _))
  obtain ⟨h2, h3, h1⟩ := C37_brackets_sign_change hp hb h
  rcases h1 with h1 | ⟨lo, hi, a, b, c', d, e, f, g, i⟩
  · have : v < x := by
      by_contra hc
      have := hfeas x h2 (not_lt.mp hc)
      linarith
    linarith
  · have : v < hi := by
      by_contra hc
      have := hfeas hi (by linarith) (not_lt.mp hc)
      linarith
    linarith

/-- **C37.**  The search succeeds whenever the program is feasible at the lower end, clearly infeasible at
the upper end, and the number of iterations suffices to divide the interval below the tolerance. -/
theorem C37_converges {O : Oracle K γ} {b0 b1 precision xtol rtol : K} {maxiter : Nat}
    (hp : 0 < precision) (hb : b0 < b1) (hrtol : 0 ≤ rtol) (hit : 0 < maxiter) (hw : b1 - b0 < 2 ^ maxiter * xtol)
    (h0 : 0 ≤ O.objective b0) (h1 : O.objective b1 < -(precision / 1024)) :
    ∃ x, maximizeViaBisect O b0 b1 precision xtol rtol maxiter false = .value x := by
  have he : 0 < precision / 2048 := by positivity
  have hh : precision / 1024 = precision / 2048 + precision / 2048 := by ring
  have ok0 : CacheOk O precision (⟨[], []⟩ : BState K γ) := by intro t ht; simp at ht
  obtain ⟨p1, p2, -⟩ := cachedF_spec O precision b1 ⟨[], []⟩ ok0
  obtain ⟨q1, q2, -⟩ := cachedF_spec O precision b0 (cachedF O precision b1 ⟨[], []⟩).2 p2
  obtain ⟨u1, u2, -⟩ := cachedF_spec O precision b0 _ q2
  obtain ⟨w1, w2, -⟩ := cachedF_spec O precision b1 _ u2
  have hF1 : O.objective b1 + precision / 2048 < 0 := by linarith
  have hF0 : 0 < O.objective b0 + precision / 2048 := by linarith
  obtain ⟨x, st', hl⟩ := bisectLoop_converges O precision xtol rtol hrtol maxiter b0 (b1 - b0)
    (cachedF O precision b1 (cachedF O precision b0 (cachedF O precision b0 (cachedF O precision b1 ⟨[], []⟩).2).2).2).2
    (by linarith) hit hw
  refine ⟨x, ?_⟩
  unfold maximizeViaBisect
  simp only [p1, q1]
  rw [if_neg (not_not.mpr (by linarith)), if_neg (not_not.mpr (by linarith))]
  unfold bisect
  simp only [u1, w1]
  rw [if_neg hF0.ne', if_neg hF1.ne, if_neg (by simp [hF0, not_lt.mpr hF1.le])]
  simp only [hF0, decide_true]
  rw [hl]
  simp

/-- **C37.**  The certificate returned with the value is the one computed at that value, whenever the program
has a certificate with a non-zero coefficient there. -/
theorem C37_certificate_at_value {O : Oracle K γ} {b0 b1 precision xtol rtol : K} {maxiter : Nat} {x : K} {cert : List γ}
    (hp : 0 < precision) (hb : b0 < b1) (hne : O.certificate x ≠ [])
    (h : maximizeViaBisect O b0 b1 precision xtol rtol maxiter true = .withCertificate x cert) :
    cert = O.certificate x := by
  obtain ⟨h1, h0, y, st', hy, hor⟩ := run_inv h (by simp)
  rcases hor with ⟨hr, -⟩ | ⟨-, t, ht, e⟩
  · cases hr
  · obtain ⟨rfl, rfl⟩ : x = y ∧ cert = t.2 := by
      injection e with e1 e2
      exact ⟨e1, e2⟩
    obtain ⟨-, -, -, hc⟩ := bisect_run O b0 b1 precision xtol rtol maxiter hp hb h1 h0 hy
    obtain ⟨l, hl⟩ := hc hne
    rw [hl, List.getLast?_append] at ht
    simp at ht
    rw [← ht]

end Verif.Optimize
