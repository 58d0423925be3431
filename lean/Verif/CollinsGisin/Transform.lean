import Verif.CollinsGisin.Rows
/-! The inclusion-exclusion transform of a function of events. -/
namespace Verif.CollinsGisin
open Verif.Orbits

variable {K : Type} [CommRing K]

/-- A function of lists that only depends on the set of entries up to order. -/
def PermInv (F : List Nat → K) : Prop := ∀ u v, u.Perm v → F u = F v

theorem val_comm (X Y : List (Bool × List Nat)) (g : List Nat → List Nat → K) :
    val X (fun u => val Y (g u)) = val Y fun w => val X fun u => g u w := by
  induction X with
  | nil =>
    simp only [val_nil]
    induction Y with
    | nil => rfl
    | cons y Y ih => rw [val_cons, ← ih]; simp
  | cons x X ih =>
    rw [val_cons, ih]
    have : val Y (fun w => val (x :: X) fun u => g u w) = val Y fun w => sg x.1 * g x.2 w + val X fun u => g u w :=
      val_congr fun w => val_cons _ _ _
    rw [this, val_add]
    congr 1
    unfold val
    rw [← sum_mul_left]
    congr 1
    apply List.map_congr_left
    intro y _
    ring

theorem val_combos_snoc (bs : List (List Nat)) (b : List Nat) (f : List Nat → K) :
    val (combos (bs ++ [b])) f = val (combos bs) fun u => val (alt b) fun w => f (u ++ w) := by
  have hcombo : combos (bs ++ [b]) = combine (combos bs) (alt b) := by simp [combos, List.foldl_append]
  rw [hcombo, val_combine]

theorem val_combos_cons (bs : List (List Nat)) (b : List Nat) (f : List Nat → K) :
    val (combos (b :: bs)) f = val (alt b) fun w => val (combos bs) fun u => f (w ++ u) := by
  induction bs using List.reverseRecOn generalizing f with
  | nil =>
    have : combos [b] = alt b := by simp [combos, combine_unit]
    rw [this]
    apply val_congr
    intro w
    simp [combos, val, sg]
  | append_singleton bs c ih =>
    rw [← List.cons_append, val_combos_snoc, ih]
    apply val_congr
    intro w
    rw [val_combos_snoc]
    apply val_congr
    intro u
    apply val_congr
    intro z
    rw [List.append_assoc]

theorem val_combos_perm {bs bs' : List (List Nat)} (hp : bs.Perm bs') : ∀ {f : List Nat → K}, PermInv f →
    val (combos bs) f = val (combos bs') f := by
  induction hp with
  | nil => intro f _; rfl
  | cons b _ ih =>
    intro f hf
    rw [val_combos_cons, val_combos_cons]
    apply val_congr
    intro w
    exact ih fun u v huv => hf _ _ (huv.append_left w)
  | swap b c l =>
    intro f hf
    rw [val_combos_cons, val_combos_cons]
    have h1 : ∀ (b c : List Nat), (val (alt b) fun w => val (combos (c :: l)) fun u => f (w ++ u)) =
        val (alt b) fun w => val (alt c) fun z => val (combos l) fun u => f (w ++ (z ++ u)) := by
      intro b c
      apply val_congr
      intro w
      rw [val_combos_cons]
    rw [h1, h1, val_comm]
    apply val_congr
    intro w
    apply val_congr
    intro z
    apply val_congr
    intro u
    apply hf
    rw [← List.append_assoc, ← List.append_assoc]
    exact List.perm_append_comm.append_right u
  | trans _ _ ih1 ih2 => intro f hf; rw [ih1 hf, ih2 hf]

theorem val_congr_mem {X : List (Bool × List Nat)} {f g : List Nat → K} (h : ∀ x ∈ X, f x.2 = g x.2) : val X f = val X g := by
  unfold val
  congr 1
  apply List.map_congr_left
  intro x hx
  rw [h x hx]

/-- Inclusion-exclusion over the last outcomes of the measurements `bs`. -/
def T (bs : List (List Nat)) (F : List Nat → K) (e : List Nat) : K :=
  val (combos (critBlocks bs e)) fun u => F (absent bs e ++ u)

theorem T_perm {bs : List (List Nat)} {F : List Nat → K} (hF : PermInv F) : PermInv (T bs F) := by
  intro u v huv
  unfold T
  have h1 : critBlocks bs u = critBlocks bs v := by
    unfold critBlocks
    apply List.filter_congr
    intro b _
    rw [Bool.eq_iff_iff]
    simp only [List.contains_iff_mem, huv.mem_iff]
  rw [h1]
  apply val_congr
  intro w
  exact hF _ _ ((huv.filter _).append_right w)

variable {n : Nat} {blocks : List (List Nat)} {adj : Nat → Nat → Bool}

theorem last_not_other (h : BlocksOk n blocks) {b c : List Nat} (hb : b ∈ blocks) (hc : c ∈ blocks) {r : Nat} (hr : r ∈ b)
    (hrc : r = c.getLastD 0) : b = c := by
  obtain ⟨i, hi⟩ := List.getElem?_of_mem hb
  obtain ⟨j, hj⟩ := List.getElem?_of_mem hc
  have hij := h.idx_unique hi hj hr (hrc ▸ last_mem (h.nonempty c hc))
  subst hij
  rw [hi] at hj
  cases hj
  rfl

theorem critBlocks_cons_other (h : BlocksOk n blocks) {bs : List (List Nat)} (hsub : bs.Sublist blocks) {b : List Nat} (hb : b ∈ blocks)
    {r : Nat} (hr : r ∈ b) (hno : b ∉ bs ∨ r ≠ b.getLastD 0) (e : List Nat) :
    critBlocks bs (r :: e) = critBlocks bs e ∧ absent bs (r :: e) = r :: absent bs e := by
  have hne : ∀ c ∈ bs, c.getLastD 0 ≠ r := by
    intro c hc hcr
    have := last_not_other h hb (hsub.subset hc) hr hcr.symm
    subst this
    rcases hno with h1 | h1
    · exact h1 hc
    · exact h1 hcr.symm
  constructor
  · unfold critBlocks
    apply List.filter_congr
    intro c hc
    rw [Bool.eq_iff_iff]
    simp only [List.contains_iff_mem, List.mem_cons, hne c hc, false_or]
  · unfold absent
    rw [List.filter_cons_of_pos]
    simp only [Bool.not_eq_true', ← Bool.not_eq_true, List.contains_iff_mem, lasts, List.mem_map, not_exists, not_and]
    exact fun c hc => hne c hc

/-- No outcome of a measurement that extends the event occurs in it. -/
theorem not_mem_of_ext (h : BlocksOk n blocks) {b : List Nat} (hb : b ∈ blocks) {e : List Nat} {r s : Nat} (hr : r ∈ b)
    (he : IsEvent blocks adj (r :: e)) (hs : s ∈ b) : s ∉ e := by
  intro hse
  obtain ⟨i, hi⟩ := List.getElem?_of_mem hb
  have := (List.pairwise_cons.1 he.compat).1 s hse i i b b hi hi hr hs
  exact this.1 rfl

theorem critBlocks_cons_last (h : BlocksOk n blocks) {bs : List (List Nat)} (hsub : bs.Sublist blocks) (hnd : bs.Nodup) {b : List Nat} (hb : b ∈ bs)
    {e : List Nat} (hbe : b.getLastD 0 ∉ e) :
    (critBlocks bs (b.getLastD 0 :: e)).Perm (critBlocks bs e ++ [b]) ∧ absent bs (b.getLastD 0 :: e) = absent bs e := by
  constructor
  · have hcn : ∀ e, (critBlocks bs e).Nodup := fun e => List.Nodup.filter _ hnd
    rw [List.perm_ext_iff_of_nodup (hcn _)]
    · intro c
      unfold critBlocks
      simp only [List.mem_filter, List.contains_iff_mem, List.mem_cons, List.mem_append, List.not_mem_nil, or_false]
      constructor
      · rintro ⟨h1, h2 | h2⟩
        · right
          exact last_not_other h (hsub.subset h1) (hsub.subset hb) (last_mem (h.nonempty c (hsub.subset h1))) h2
        · exact .inl ⟨h1, h2⟩
      · rintro (⟨h1, h2⟩ | rfl)
        · exact ⟨h1, .inr h2⟩
        · exact ⟨hb, .inl rfl⟩
    · rw [List.nodup_append]
      refine ⟨List.Nodup.filter _ hnd, by simp, ?_⟩
      intro c hc d hd hcd
      rw [List.mem_singleton.1 hd] at hcd
      subst hcd
      simp only [critBlocks, List.mem_filter, List.contains_iff_mem] at hc
      exact hbe hc.2
  · unfold absent
    rw [List.filter_cons_of_neg]
    simp only [Bool.not_eq_true', ← Bool.not_eq_true, List.contains_iff_mem, not_not]
    exact List.mem_map.2 ⟨b, hb, rfl⟩

theorem blocks_nodup (h : BlocksOk n blocks) : blocks.Nodup := by
  have := (List.nodup_flatten.1 h.nodup).2
  refine List.Pairwise.imp_of_mem ?_ this
  intro b c hb _ hd e
  subst e
  obtain ⟨r, hr⟩ := List.exists_mem_of_ne_nil _ (h.nonempty b hb)
  exact hd hr hr

theorem sum_split_last {α : Type} [AddCommMonoid α] {b : List Nat} (hne : b ≠ []) (f : Nat → α) :
    (b.map f).sum = (b.dropLast.map f).sum + f (b.getLastD 0) := by
  have hsplit : b = b.dropLast ++ [b.getLastD 0] := by
    rw [List.getLastD_eq_getLast?, List.getLast?_eq_some_getLast hne]
    exact (List.dropLast_append_getLast hne).symm
  conv_lhs => rw [hsplit]
  simp

/-- The transform marginalises over the measurements it eliminates. -/
theorem T_marginal (h : BlocksOk n blocks) {bs : List (List Nat)} (hsub : bs.Sublist blocks) {F : List Nat → K} (hF : PermInv F)
    {b : List Nat} (hb : b ∈ bs) {e : List Nat} (hev : ∀ r ∈ b, IsEvent blocks adj (r :: e)) :
    (b.map fun r => T bs F (r :: e)).sum = T bs F e := by
  have hbb := hsub.subset hb
  have hne := h.nonempty b hbb
  have hnot : b.getLastD 0 ∉ e := not_mem_of_ext h hbb (last_mem hne) (hev _ (last_mem hne)) (last_mem hne)
  have hnd : bs.Nodup := List.Nodup.sublist hsub (blocks_nodup h)
  rw [sum_split_last hne]
  have e1 : T bs F (b.getLastD 0 :: e) = T bs F e - (b.dropLast.map fun r => T bs F (r :: e)).sum := by
    obtain ⟨h1, h2⟩ := critBlocks_cons_last h hsub hnd hb hnot
    have e2 : (b.dropLast.map fun r => T bs F (r :: e)) =
        b.dropLast.map fun r => val (combos (critBlocks bs e)) fun u => F (absent bs e ++ (u ++ [r])) := by
      apply List.map_congr_left
      intro r hr
      have hr' := (mem_dropLast_iff (block_nodup h hbb) hne).1 hr
      obtain ⟨h3, h4⟩ := critBlocks_cons_other h hsub hbb hr'.1 (.inr hr'.2) e
      unfold T
      rw [h3, h4]
      apply val_congr
      intro u
      apply hF
      rw [← List.append_assoc]
      exact (List.perm_append_singleton r (absent bs e ++ u)).symm
    rw [e2, ← val_sum]
    unfold T
    rw [h2, val_combos_perm h1 fun u v huv => hF _ _ (huv.append_left _), val_combos_snoc, ← val_sub]
    apply val_congr
    intro u
    rw [val_alt]
    simp
  rw [e1]
  ring

/-- The transform commutes with marginalising over another measurement. -/
theorem T_marginal_other (h : BlocksOk n blocks) {bs : List (List Nat)} (hsub : bs.Sublist blocks) (F : List Nat → K)
    {b : List Nat} (hb : b ∈ blocks) (hnb : b ∉ bs) (e : List Nat) :
    (b.map fun r => T bs F (r :: e)).sum = T bs (fun l => (b.map fun r => F (r :: l)).sum) e := by
  have e1 : (b.map fun r => T bs F (r :: e)) = b.map fun r => val (combos (critBlocks bs e)) fun u => F (r :: (absent bs e ++ u)) := by
    apply List.map_congr_left
    intro r hr
    obtain ⟨h3, h4⟩ := critBlocks_cons_other h hsub hb hr (.inl hnb) e
    unfold T
    rw [h3, h4]
    rfl
  rw [e1, ← val_sum]
  rfl

theorem T_of_no_crit {bs : List (List Nat)} {e : List Nat} (hc : critBlocks bs e = []) (F : List Nat → K) : T bs F e = F e := by
  have ha : absent bs e = e := by
    unfold absent
    rw [List.filter_eq_self]
    intro r hr
    simp only [Bool.not_eq_true', ← Bool.not_eq_true, List.contains_iff_mem]
    intro hl
    obtain ⟨b, hb, rfl⟩ := List.mem_map.1 hl
    have : b ∈ critBlocks bs e := List.mem_filter.2 ⟨hb, by simpa using hr⟩
    rw [hc] at this
    simp at this
  unfold T
  rw [hc, ha]
  simp [combos, val, sg]

end Verif.CollinsGisin
