import Verif.Certificates.ReportWitness
/-!
C50: what `evaluate_polynomial` and the printed polynomial mean when several entries of the dictionary denote the same moment.
-/
namespace Verif.Certificates

variable {κ : Type} [DecidableEq κ] {K : Type} [Field K] [LinearOrder K] [FloorRing K]

/-- Adding to an entry adds to the value. -/
theorem upsert_add (c : K) (k : MonObj κ) (d : List (MonObj κ × K)) (val : κ → K) :
    polyValue (upsert (fun v => v + c) 0 k d) val = polyValue d val + c * val k.key := by
  induction d with
  | nil => simp [upsert, polyValue]
  | cons t d ih =>
    obtain ⟨k', v⟩ := t
    unfold upsert
    split
    · rename_i h
      simp only [polyValue, List.map_cons, List.sum_cons]
      rw [h]
      ring
    · simp only [polyValue, List.map_cons, List.sum_cons] at ih ⊢
      rw [ih]
      ring

omit [LinearOrder K] [FloorRing K] in
theorem upsert_keys (f : K → K) (v0 : K) (k : MonObj κ) (d : List (MonObj κ × K)) :
    (∀ t ∈ upsert f v0 k d, t.1 = k ∨ ∃ u ∈ d, u.1 = t.1) ∧ ((d.map fun t => t.1.key).Nodup → ((upsert f v0 k d).map fun t => t.1.key).Nodup) ∧
    (∀ t ∈ upsert f v0 k d, t.1.key = k.key ∨ t ∈ d) := by
  induction d with
  | nil => simp [upsert]
  | cons t d ih =>
    obtain ⟨k', v⟩ := t
    unfold upsert
    split
    · rename_i h
      refine ⟨?_, ?_, ?_⟩
      · intro t ht
        rcases List.mem_cons.1 ht with rfl | ht
        · exact .inr ⟨_, List.mem_cons_self, rfl⟩
        · exact .inr ⟨t, List.mem_cons_of_mem _ ht, rfl⟩
      · intro hn; simpa using hn
      · intro t ht
        rcases List.mem_cons.1 ht with rfl | ht
        · exact .inl h
        · exact .inr (List.mem_cons_of_mem _ ht)
    · rename_i h
      refine ⟨?_, ?_, ?_⟩
      · intro t ht
        rcases List.mem_cons.1 ht with rfl | ht
        · exact .inr ⟨_, List.mem_cons_self, rfl⟩
        · rcases ih.1 t ht with e | ⟨u, hu, e⟩
          · exact .inl e
          · exact .inr ⟨u, List.mem_cons_of_mem _ hu, e⟩
      · intro hn
        simp only [List.map_cons, List.nodup_cons] at hn ⊢
        refine ⟨?_, ih.2.1 hn.2⟩
        intro hmem
        obtain ⟨t, ht, e⟩ := List.mem_map.1 hmem
        rcases ih.2.2 t ht with e2 | e2
        · exact h (e ▸ e2)
        · exact hn.1 (List.mem_map.2 ⟨t, e2, e⟩)
      · intro t ht
        rcases List.mem_cons.1 ht with rfl | ht
        · exact .inr List.mem_cons_self
        · rcases ih.2.2 t ht with e | e
          · exact .inl e
          · exact .inr (List.mem_cons_of_mem _ e)

/-- **C50, entries for the same moment are added.** `_sanitise_dict` keeps one entry per moment, invents none, and does not change the value of the polynomial without its tiny
coefficients. -/
theorem C50_sanitised_polynomial (d : List (MonObj κ × K)) (val : κ → K) :
    ((sanitise d).map fun t => t.1.key).Nodup ∧ (∀ t ∈ sanitise d, ∃ u ∈ d, u.1 = t.1) ∧
    polyValue (sanitise d) val = polyValue (d.filter fun t => !close0 t.2) val := by
  unfold sanitise
  have key : ∀ (l acc : List (MonObj κ × K)), (acc.map fun t => t.1.key).Nodup →
      ((l.foldl (fun d t => upsert (fun v => v + t.2) 0 t.1 d) acc).map fun t => t.1.key).Nodup ∧
      (∀ t ∈ l.foldl (fun d t => upsert (fun v => v + t.2) 0 t.1 d) acc, ∃ u ∈ acc ++ l, u.1 = t.1) ∧
      polyValue (l.foldl (fun d t => upsert (fun v => v + t.2) 0 t.1 d) acc) val = polyValue acc val + polyValue l val := by
    intro l
    induction l with
    | nil =>
      intro acc h
      refine ⟨h, ?_, by simp [polyValue]⟩
      intro t ht
      exact ⟨t, by simpa using ht, rfl⟩
    | cons a l ih =>
      intro acc h
      obtain ⟨h1, h2, h3⟩ := ih _ ((upsert_keys (fun v => v + a.2) 0 a.1 acc).2.1 h)
      refine ⟨h1, ?_, ?_⟩
      · intro t ht
        obtain ⟨u, hu, e⟩ := h2 t ht
        rcases List.mem_append.1 hu with hu | hu
        · rcases (upsert_keys (fun v => v + a.2) 0 a.1 acc).1 u hu with e2 | ⟨w, hw, e2⟩
          · exact ⟨a, by simp, by rw [← e, e2]⟩
          · exact ⟨w, List.mem_append_left _ hw, by rw [← e, e2]⟩
        · exact ⟨u, by simp [hu], e⟩
      · rw [List.foldl_cons, h3, upsert_add]
        simp only [polyValue, List.map_cons, List.sum_cons]
        ring
  obtain ⟨h1, h2, h3⟩ := key (d.filter fun t => !close0 t.2) [] (by simp)
  refine ⟨h1, ?_, by simpa [polyValue] using h3⟩
  intro t ht
  obtain ⟨u, hu, e⟩ := h2 t ht
  rw [List.nil_append] at hu
  exact ⟨u, (List.mem_filter.1 hu).1, e⟩

/-- **C50, `evaluate_polynomial`.** For any dictionary, several names of which may denote the same moment, the result is the value of the polynomial without its tiny
coefficients. -/
theorem C50_polynomial_value (d : List (MonObj κ × K)) (val : κ → K) (hz : ∀ t ∈ d, t.1.isZero = true → val t.1.key = 0) :
    evaluatePolynomial d val = polyValue (d.filter fun t => !close0 t.2) val := by
  obtain ⟨_, h2, h3⟩ := C50_sanitised_polynomial d val
  rw [← h3]
  unfold evaluatePolynomial polyValue
  congr 1
  apply List.map_congr_left
  intro t ht
  split
  · rename_i h
    obtain ⟨u, hu, e⟩ := h2 t ht
    have := hz u hu (by rw [e]; exact h)
    rw [e] at this
    rw [this]
    ring
  · ring

example : evaluatePolynomial (K := ℚ) [(⟨1, "p(0|0)", false⟩, 2), (⟨2, "0", true⟩, 7), (⟨1, "pA(0|0)", false⟩, 3), (⟨3, "q", false⟩, 1 / 10 ^ 9)]
    (fun k : Nat => if k = 2 then 0 else 1 / 2) = 5 / 2 := by decide +kernel

end Verif.Certificates
