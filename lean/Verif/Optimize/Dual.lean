import Verif.Optimize.Model

/-!
# C38: maximisation with certificates

`feasible p` says that the program is feasible at the parameter `p`.  The certificate obtained at a parameter
`v` is sound if its value at every feasible parameter is non-negative (this is C31).
-/

namespace Verif.Optimize

set_option linter.unusedSectionVars false

variable {K : Type} [Field K] [LinearOrder K] [IsStrictOrderedRing K]

/-- The value at the parameter `p` of the certificate found at the parameter `v`. -/
def certAt (symbolic : String → Option (K → K)) (certificate : K → List (String × K)) (v p : K) : K :=
  ((certificate v).map fun t => ((symbolic t.1).getD fun _ => 0) p * t.2).sum

/-- Every certificate with symbolic values for all its moments is non-negative at every feasible parameter of the interval. -/
def Sound (symbolic : String → Option (K → K)) (certificate : K → List (String × K)) (feasible : K → Prop) (b0 b1 : K) : Prop :=
  ∀ v p, (∀ t ∈ certificate v, (symbolic t.1).isSome) → b0 ≤ p → p ≤ b1 → feasible p → 0 ≤ certAt symbolic certificate v p

/-- `x` is the largest point of the interval where `g` is non-negative (what the inner optimisation aims at), or at least
above all such points. -/
def IsGlobalMax (b0 b1 : K) (g : K → K) (x : K) : Prop :=
  b0 ≤ x ∧ x ≤ b1 ∧ ∀ y, b0 ≤ y → y ≤ b1 → 0 ≤ g y → y ≤ x

/-- `x` is a local maximum: it is the upper end, or `g` is negative somewhere immediately above it (what a local method
such as SLSQP can be expected to deliver). -/
def IsLocalMax (b0 b1 : K) (g : K → K) (x : K) : Prop :=
  b0 ≤ x ∧ x ≤ b1 ∧ (x = b1 ∨ ∀ δ, 0 < δ → ∃ y, x < y ∧ y < x + δ ∧ y ≤ b1 ∧ g y < 0)

theorem certFunction_eq (symbolic : String → Option (K → K)) (cert : List (String × K)) {g : K → K}
    (h : certFunction symbolic cert = some g) (p : K) :
    g p = (cert.map fun t => ((symbolic t.1).getD fun _ => 0) p * t.2).sum := by
  induction cert generalizing g with
  | nil =>
    obtain rfl := Option.some.inj h
    rfl
  | cons t d ih =>
    obtain ⟨n, c⟩ := t
    unfold certFunction at h
    cases hs : symbolic n with
    | none => rw [hs] at h; cases h
    | some s =>
      cases hd : certFunction symbolic d with
      | none => rw [hs, hd] at h; cases h
      | some g' =>
        rw [hs, hd] at h
        obtain rfl := Option.some.inj h
        simp [hs, ih hd]

theorem certFunction_isSome (symbolic : String → Option (K → K)) (cert : List (String × K)) {g : K → K}
    (h : certFunction symbolic cert = some g) : ∀ t ∈ cert, (symbolic t.1).isSome := by
  induction cert generalizing g with
  | nil => simp
  | cons t d ih =>
    obtain ⟨n, c⟩ := t
    unfold certFunction at h
    cases hs : symbolic n with
    | none => rw [hs] at h; cases h
    | some s =>
      cases hd : certFunction symbolic d with
      | none => rw [hs, hd] at h; cases h
      | some g' =>
        intro u hu
        rcases List.mem_cons.1 hu with rfl | hu
        · simp [hs]
        · exact ih hd u hu

/-- The run as a relation: which bounds were computed from which certificates. -/
theorem dualLoop_spec (symbolic : String → Option (K → K)) (certificate : K → List (String × K)) (minimize : (K → K) → K)
    (precision : K) (fuel : Nat) (newUb : K) (oldUb : Option K) (certs : List (K × K)) {r : K × Option K × List (K × K)}
    (h : dualLoop symbolic certificate minimize precision fuel newUb oldUb certs = some (some r)) :
    ∃ l, r.2.2 = certs ++ l ∧
      (∀ t ∈ l, ∃ g, certFunction symbolic (certificate t.1) = some g ∧ t.2 = minimize g) ∧
      -- consecutive bounds
      (((newUb :: l.map Prod.snd).dropLast).map (· + precision) = l.map Prod.fst) ∧
      (newUb :: l.map Prod.snd).getLast? = some r.1 ∧
      (l = [] → r.2.1 = oldUb) ∧
      (∀ m, (newUb :: l.map Prod.snd).dropLast.getLast? = some m → r.2.1 = some m) ∧
      -- all but the last step decrease the bound by more than the precision
      ((∀ o, oldUb = some o → l ≠ [] → newUb + precision < o) ∧
        List.IsChain (fun a b => b + precision < a) ((newUb :: l.map Prod.snd).dropLast)) ∧
      -- and the loop stops when the bound does not decrease by more than the precision
      (∀ o, r.2.1 = some o → ¬ r.1 + precision < o) ∧ r.2.1 ≠ none := by
  induction fuel generalizing newUb oldUb certs with
  | zero => cases h
  | succ fuel ih =>
    unfold dualLoop at h
    split at h
    · rename_i hcond
      cases hg : certFunction symbolic (certificate (newUb + precision)) with
      | none => rw [hg] at h; cases h
      | some g =>
        rw [hg] at h
        obtain ⟨l, h1, h2, h3, h4, h5, h6, h7, h8, h9⟩ := ih (minimize g) (some newUb) _ h
        refine ⟨(newUb + precision, minimize g) :: l, ?_, ?_, ?_, ?_, ?_, ?_, ⟨?_, ?_⟩, h8, h9⟩
        · rw [h1, List.append_assoc]; rfl
        · intro t ht
          rcases List.mem_cons.mp ht with rfl | ht
          · exact ⟨g, hg, rfl⟩
          · exact h2 t ht
        · simp only [List.map_cons, List.dropLast_cons_cons]
          exact congrArg _ h3
        · rw [List.map_cons, List.getLast?_cons_cons]; exact h4
        · intro e; cases e
        · intro m hm
          cases l with
          | nil =>
            simp only [List.map_cons, List.map_nil, List.dropLast_cons_cons, List.dropLast_singleton] at hm
            have : newUb = m := by simpa using hm
            rw [h5 rfl, this]
          | cons t l =>
            apply h6
            simpa [List.dropLast_cons_cons, List.getLast?_cons_cons] using hm
        · intro o ho _
          rw [ho] at hcond
          simpa [goesOn] using hcond
        · cases l with
          | nil => simp
          | cons t l =>
            simp only [List.map_cons, List.dropLast_cons_cons] at h7 ⊢
            rw [List.isChain_cons_cons]
            exact ⟨h7.1 newUb rfl (by simp), h7.2⟩
    · rename_i hcond
      obtain rfl := Option.some.inj (Option.some.inj h)
      refine ⟨[], by simp, by simp, by simp, by simp, by simp, by simp, ⟨by simp, by simp⟩, ?_, ?_⟩
      · intro o ho
        simp only at ho
        rw [ho] at hcond
        simpa [goesOn] using hcond
      · intro e
        simp only at e
        rw [e] at hcond
        simp [goesOn] at hcond

/-- unfolding a successful call -/
theorem dual_inv {symbolic : String → Option (K → K)} {certificate : K → List (String × K)} {minimize : (K → K) → K}
    {b1 precision : K} {fuel : Nat} {x : K} {certs : List (K × K)}
    (h : maximizeViaDual symbolic certificate minimize b1 precision fuel = some (some (x, certs))) :
    ∃ newUb oldUb, dualLoop symbolic certificate minimize precision fuel (b1 - precision) none [] = some (some (newUb, some oldUb, certs)) ∧
      1 < certs.length ∧ x = max newUb oldUb := by
  unfold maximizeViaDual at h
  split at h
  · cases h
  · cases h
  · rename_i newUb oldUb certs' hl
    split at h
    · rename_i hlen
      obtain ⟨hx, rfl⟩ := Prod.mk.inj (Option.some.inj (Option.some.inj h))
      obtain ⟨l, -, -, -, -, -, -, -, -, h9⟩ := dualLoop_spec _ _ _ _ _ _ _ _ hl
      cases oldUb with
      | none => exact absurd rfl h9
      | some o =>
        refine ⟨newUb, o, hl, hlen, ?_⟩
        rw [← hx]
        simp only
        split
        · rename_i hlt; rw [max_eq_right hlt.le]
        · rename_i hlt; rw [max_eq_left (not_lt.mp hlt)]
    · cases h

/-- the final bounds are among the computed ones -/
theorem dual_bounds_mem {symbolic : String → Option (K → K)} {certificate : K → List (String × K)} {minimize : (K → K) → K}
    {b1 precision : K} {fuel : Nat} {x : K} {certs : List (K × K)}
    (h : maximizeViaDual symbolic certificate minimize b1 precision fuel = some (some (x, certs))) :
    ∃ new, (∃ t ∈ certs, t.2 = new) ∧ new ≤ x ∧ (∃ t ∈ certs, t.2 = x) := by
  obtain ⟨newUb, oldUb, hl, hlen, rfl⟩ := dual_inv h
  obtain ⟨l, h1, h2, h3, h4, h5, h6, h7, h8, h9⟩ := dualLoop_spec _ _ _ _ _ _ _ _ hl
  rw [List.nil_append] at h1
  simp only at h1 h4 h6
  subst h1
  obtain ⟨t, t', l, rfl⟩ : ∃ t t' l, certs = t :: t' :: l := by
    cases certs with
    | nil => simp at hlen
    | cons t l =>
      cases l with
      | nil => simp at hlen
      | cons t' l => exact ⟨t, t', l, rfl⟩
  have hnew : ∃ u ∈ t :: t' :: l, u.2 = newUb := by
    rw [List.map_cons, List.getLast?_cons_cons] at h4
    have := List.mem_of_getLast? h4
    exact List.mem_map.mp this
  have hold : ∃ u ∈ t :: t' :: l, u.2 = oldUb := by
    have hne : (t.2 :: (t' :: l).map Prod.snd).dropLast ≠ [] := by simp
    have e : ((b1 - precision) :: (t :: t' :: l).map Prod.snd).dropLast.getLast? = some ((t.2 :: (t' :: l).map Prod.snd).dropLast.getLast hne) := by
      rw [← List.getLast?_eq_some_getLast hne]
      simp only [List.map_cons, List.dropLast_cons_cons, List.getLast?_cons_cons]
    have := h6 _ e
    have ho := Option.some.inj this
    have hmem : oldUb ∈ (t.2 :: (t' :: l).map Prod.snd) := by
      rw [ho]
      exact List.mem_of_mem_dropLast (List.getLast_mem hne)
    exact List.mem_map.mp hmem
  refine ⟨newUb, hnew, le_max_left _ _, ?_⟩
  rcases le_total newUb oldUb with hle | hle
  · rw [max_eq_right hle]; exact hold
  · rw [max_eq_left hle]; exact hnew

/-- **C38.**  If the certificates are sound and the inner optimisation finds the global maximum, no feasible parameter of the
interval exceeds any of the computed bounds, in particular not the returned value. -/
theorem C38_safe_global {symbolic : String → Option (K → K)} {certificate : K → List (String × K)} {minimize : (K → K) → K}
    {feasible : K → Prop} {b0 b1 precision : K} {fuel : Nat} {x : K} {certs : List (K × K)}
    (hs : Sound symbolic certificate feasible b0 b1)
    (hm : ∀ v g, certFunction symbolic (certificate v) = some g → IsGlobalMax b0 b1 g (minimize g))
    (h : maximizeViaDual symbolic certificate minimize b1 precision fuel = some (some (x, certs)))
    {p : K} (h0 : b0 ≤ p) (h1 : p ≤ b1) (hp : feasible p) : p ≤ x ∧ ∀ t ∈ certs, p ≤ t.2 := by
  have hall : ∀ t ∈ certs, p ≤ t.2 := by
    obtain ⟨newUb, oldUb, hl, -, -⟩ := dual_inv h
    obtain ⟨l, e1, e2, -⟩ := dualLoop_spec _ _ _ _ _ _ _ _ hl
    rw [List.nil_append] at e1
    simp only at e1
    subst e1
    intro t ht
    obtain ⟨g, hg, hmin⟩ := e2 t ht
    rw [hmin]
    apply (hm _ g hg).2.2 p h0 h1
    rw [certFunction_eq _ _ hg]
    exact hs t.1 p (certFunction_isSome _ _ hg) h0 h1 hp
  refine ⟨?_, hall⟩
  obtain ⟨-, -, -, t, ht, e⟩ := dual_bounds_mem h
  rw [← e]
  exact hall t ht

/-- **C38.**  With a local method the same holds if feasibility is monotone: every parameter of the interval below a feasible
one is feasible (as for visibilities). -/
theorem C38_safe_local {symbolic : String → Option (K → K)} {certificate : K → List (String × K)} {minimize : (K → K) → K}
    {feasible : K → Prop} {b0 b1 precision : K} {fuel : Nat} {x : K} {certs : List (K × K)}
    (hs : Sound symbolic certificate feasible b0 b1)
    (hmono : ∀ p q, b0 ≤ q → q ≤ p → p ≤ b1 → feasible p → feasible q)
    (hm : ∀ v g, certFunction symbolic (certificate v) = some g → IsLocalMax b0 b1 g (minimize g))
    (h : maximizeViaDual symbolic certificate minimize b1 precision fuel = some (some (x, certs)))
    {p : K} (h0 : b0 ≤ p) (h1 : p ≤ b1) (hp : feasible p) : p ≤ x ∧ ∀ t ∈ certs, p ≤ t.2 := by
  have hall : ∀ t ∈ certs, p ≤ t.2 := by
    obtain ⟨newUb, oldUb, hl, -, -⟩ := dual_inv h
    obtain ⟨l, e1, e2, -⟩ := dualLoop_spec _ _ _ _ _ _ _ _ hl
    rw [List.nil_append] at e1
    simp only at e1
    subst e1
    intro t ht
    obtain ⟨g, hg, hmin⟩ := e2 t ht
    rw [hmin]
    by_contra hc
    push Not at hc
    obtain ⟨k1, k2, k3⟩ := hm _ g hg
    rcases k3 with k3 | k3
    · rw [k3] at hc; exact absurd h1 (not_le.mpr hc)
    · obtain ⟨y, y1, y2, y3, y4⟩ := k3 (p - minimize g) (by linarith)
      have hy : feasible y := hmono p y (by linarith) (by linarith) h1 hp
      have := hs t.1 y (certFunction_isSome _ _ hg) (by linarith) y3 hy
      unfold certAt at this
      rw [← certFunction_eq _ _ hg] at this
      exact absurd this (not_le.mpr y4)
  refine ⟨?_, hall⟩
  obtain ⟨-, -, -, t, ht, e⟩ := dual_bounds_mem h
  rw [← e]
  exact hall t ht

/-- **C38.**  The computed bounds decrease, each time by more than the precision, except for the last one; each program is
solved at the previous bound plus the precision (the first one at the upper end). -/
theorem C38_bounds_decrease {symbolic : String → Option (K → K)} {certificate : K → List (String × K)} {minimize : (K → K) → K}
    {b1 precision : K} {fuel : Nat} {x : K} {certs : List (K × K)}
    (h : maximizeViaDual symbolic certificate minimize b1 precision fuel = some (some (x, certs))) :
    List.IsChain (fun a b => b + precision < a) ((certs.map Prod.snd).dropLast) ∧
      certs.map Prod.fst = b1 :: ((certs.map Prod.snd).dropLast).map (· + precision) := by
  obtain ⟨newUb, oldUb, hl, hlen, rfl⟩ := dual_inv h
  obtain ⟨l, h1, h2, h3, h4, h5, h6, h7, h8, h9⟩ := dualLoop_spec _ _ _ _ _ _ _ _ hl
  rw [List.nil_append] at h1
  simp only at h1
  subst h1
  cases certs with
  | nil => simp at hlen
  | cons t l =>
    rw [List.map_cons, List.dropLast_cons_cons] at h3 h7
    constructor
    · have := h7.2
      rw [List.map_cons]
      generalize (t.2 :: l.map Prod.snd).dropLast = d at this ⊢
      cases d with
      | nil => simp
      | cons a d => exact (List.isChain_cons_cons.mp this).2
    · rw [← h3]
      simp only [List.map_cons, sub_add_cancel]

/-- **C38.**  The loop ends: if all the results of the inner optimisation lie in the interval, the number of iterations is at
most two plus the length of the interval over the precision. -/
theorem C38_terminates {symbolic : String → Option (K → K)} {certificate : K → List (String × K)} {minimize : (K → K) → K}
    {b0 b1 precision : K} (hm : ∀ g, b0 ≤ minimize g) (N : Nat) (hN : b1 - b0 < N * precision) (hp : 0 < precision) :
    maximizeViaDual symbolic certificate minimize b1 precision (N + 2) ≠ none := by
  have key : ∀ (k : Nat) (newUb oldUb : K) (certs : List (K × K)), b0 ≤ newUb → oldUb - b0 < k * precision →
      dualLoop symbolic certificate minimize precision (k + 1) newUb (some oldUb) certs ≠ none := by
    intro k
    induction k with
    | zero =>
      intro newUb oldUb certs h1 h2
      unfold dualLoop
      have : ¬ newUb + precision < oldUb := by
        push_cast at h2
        rw [zero_mul] at h2
        linarith
      simp [goesOn, this]
    | succ k ih =>
      intro newUb oldUb certs h1 h2
      unfold dualLoop
      split
      · rename_i hc
        have hc' : newUb + precision < oldUb := by simpa [goesOn] using hc
        cases hg : certFunction symbolic (certificate (newUb + precision)) with
        | none => simp
        | some g =>
          apply ih _ _ _ (hm g)
          push_cast at h2
          linarith
      · simp
  unfold maximizeViaDual
  have : dualLoop symbolic certificate minimize precision (N + 2) (b1 - precision) none [] ≠ none := by
    rw [show N + 2 = (N + 1) + 1 from rfl]
    unfold dualLoop
    simp only [goesOn, if_true]
    cases hg : certFunction symbolic (certificate (b1 - precision + precision)) with
    | none => simp
    | some g => exact key N _ _ _ (hm g) (by linarith)
  split
  · rename_i hnone; exact absurd hnone this
  · simp
  · split <;> simp

/-- **C38.**  If the program is feasible at the upper end of the interval (and the certificates are sound and the inner
optimisation global), the call raises an error instead of returning the upper end. -/
theorem C38_raises_if_all_feasible {symbolic : String → Option (K → K)} {certificate : K → List (String × K)} {minimize : (K → K) → K}
    {feasible : K → Prop} {b0 b1 precision : K} {fuel : Nat} (hb : b0 ≤ b1) (hp : 0 < precision)
    (hs : Sound symbolic certificate feasible b0 b1)
    (hm : ∀ v g, certFunction symbolic (certificate v) = some g → IsGlobalMax b0 b1 g (minimize g))
    (hf : feasible b1) : maximizeViaDual symbolic certificate minimize b1 precision (fuel + 2) = some none := by
  unfold maximizeViaDual
  rw [show fuel + 2 = (fuel + 1) + 1 from rfl]
  unfold dualLoop
  simp only [goesOn, if_true, sub_add_cancel]
  cases hg : certFunction symbolic (certificate b1) with
  | none => rfl
  | some g =>
    have hmin : b1 ≤ minimize g := by
      apply (hm _ g hg).2.2 b1 hb le_rfl
      rw [certFunction_eq _ _ hg]
      exact hs b1 b1 (certFunction_isSome _ _ hg) hb le_rfl hf
    unfold dualLoop
    have : ¬ minimize g + precision < b1 - precision := by linarith
    simp [goesOn, this]

/-- **C38.**  A certificate that mentions a moment without symbolic value (for instance `constant_term`, when bounds are set)
makes the call raise. -/
theorem C38_missing_symbol_raises {symbolic : String → Option (K → K)} {certificate : K → List (String × K)} {minimize : (K → K) → K}
    {b1 precision : K} {fuel : Nat} (h : ∃ t ∈ certificate b1, symbolic t.1 = none) :
    maximizeViaDual symbolic certificate minimize b1 precision (fuel + 1) = some none := by
  have key : ∀ cert : List (String × K), (∃ t ∈ cert, symbolic t.1 = none) → certFunction symbolic cert = none := by
    intro cert
    induction cert with
    | nil => rintro ⟨t, ht, -⟩; simp at ht
    | cons u d ih =>
      obtain ⟨n, c⟩ := u
      rintro ⟨t, ht, hn⟩
      unfold certFunction
      rcases List.mem_cons.mp ht with rfl | ht
      · simp only at hn
        rw [hn]
      · rw [ih ⟨t, ht, hn⟩]
        cases symbolic n <;> rfl
  unfold maximizeViaDual dualLoop
  simp only [goesOn, if_true, sub_add_cancel, key _ h]

end Verif.Optimize
