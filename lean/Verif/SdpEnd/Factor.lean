import Verif.SdpEnd.Atoms
import Verif.SdpEnd.Truth
import Verif.EndToEnd.Factor
/-!
The moment of a word has the value of the word: operators of different factors commute and are independent.
-/
namespace Verif.SdpEnd
open Verif.Common Verif.Canon Verif.Scenario Verif.Components Verif.Moment Verif.MomentMatrix Verif.SdpRepr Verif.SymMM Verif.Normalization
open Verif.State (Dict Mon)
open Verif.EndToEnd (Input)
open Verif.EndToEnd.ClassicalModel (Capacity)

variable {I : Input}

/-- Operators that do not commute act on a common copy of a source. -/
theorem shareCopy_of_notcomm {a b : Nat} (h : notcomm I a b = true) {x y : Op} (hx : I.scenario.sdpLexorder[a]? = some x) (hy : I.scenario.sdpLexorder[b]? = some y) :
    ShareCopy x y := by
  have key : ∀ i j : Nat, ∀ u v : Op, I.scenario.lexorder[i]? = some u → I.scenario.lexorder[j]? = some v → operatorsCommute I.D.tbl u v = false → ShareCopy u v := by
    intro i j u v hu hv hc
    obtain ⟨⟨s, src, c, h1, h2, h3, h4⟩, _⟩ := (C06_noncommuting_iff I.D u v).1 hc
    have hval : Valid I.scenario u := (mem_lexorder _).1 (List.mem_of_getElem? hu)
    refine ⟨s, c, ?_, h3, h4⟩
    have hlink : Linked I.D src (u.party - 1) (u.party - 1) := by
      rcases h2.2 with ⟨d, hd, hn, e1, _⟩ | ⟨l, hl, hn, _, e1, _⟩
      · exact .inl ⟨d, hd, hn, e1, e1⟩
      · exact .inr ⟨l, hl, hn, e1, e1⟩
    have hhyp : I.scenario.hyp s (u.party - 1) = true := by
      show (I.D.hypRow (I.D.sources.getD s 0) (u.party - 1) == 1) = true
      have : I.D.sources.getD s 0 = src := by rw [List.getD_eq_getElem?_getD, h1]; rfl
      rw [this, beq_iff_eq]
      exact (C45_dag_tables I.D src (u.party - 1) (u.party - 1)).2.2.2.1.2 hlink
    obtain ⟨hs, e⟩ := List.getElem?_eq_some_iff.1 h3
    have := hval.copies_ok s hs
    rw [if_pos hhyp, e] at this
    omega
  unfold notcomm padMat Scenario.notcomm at h
  simp only [Bool.and_eq_true, decide_eq_true_eq] at h
  obtain ⟨⟨ha, hb⟩, h⟩ := h
  obtain ⟨i, rfl⟩ := Nat.exists_eq_succ_of_ne_zero (by omega : a ≠ 0)
  obtain ⟨j, rfl⟩ := Nat.exists_eq_succ_of_ne_zero (by omega : b ≠ 0)
  have hx' : I.scenario.lexorder[i]? = some x := by simpa [Scenario.sdpLexorder] using hx
  have hy' : I.scenario.lexorder[j]? = some y := by simpa [Scenario.sdpLexorder] using hy
  split at h
  · simp only [commutationMatrix, Nat.succ_eq_add_one, Nat.add_sub_cancel, Bool.false_eq_true, if_false, hx', hy', Bool.or_eq_true, Bool.and_eq_true, Bool.not_eq_true'] at h
    rcases h with ⟨_, h⟩ | ⟨_, h⟩
    · exact key i j x y hx' hy' h
    · obtain ⟨s, c, h0, h1, h2⟩ := key j i y x hy' hx' h
      exact ⟨s, c, h0, h2, h1⟩
  · simp at h

variable {R : Type} [Ring R] [StarRing R] [Algebra ℝ R] (M : InflatedModel I R)

/-- Letters that commute with all others may be moved to the front. -/
theorem op_filter {ρ : Nat → R} (p : Nat → Bool) (w : List Nat) (hc : ∀ a ∈ w, ∀ b ∈ w, p a = true → p b = false → ρ a * ρ b = ρ b * ρ a) :
    op ρ w = op ρ (w.filter p) * op ρ (w.filter fun a => !p a) := by
  induction w with
  | nil => simp [op]
  | cons a w ih =>
    have hih := ih (fun x hx y hy => hc x (List.mem_cons_of_mem _ hx) y (List.mem_cons_of_mem _ hy))
    have e : op ρ (a :: w) = ρ a * op ρ w := by simp [op]
    rw [e, hih]
    cases hp : p a with
    | true =>
      have h1 : (a :: w).filter p = a :: w.filter p := by simp [hp]
      have h2 : (a :: w).filter (fun a => !p a) = w.filter fun a => !p a := by simp [hp]
      rw [h1, h2]
      have : op ρ (a :: w.filter p) = ρ a * op ρ (w.filter p) := by simp [op]
      rw [this, mul_assoc]
    | false =>
      have h1 : (a :: w).filter p = w.filter p := by simp [hp]
      have h2 : (a :: w).filter (fun a => !p a) = a :: w.filter fun a => !p a := by simp [hp]
      rw [h1, h2]
      have : op ρ (a :: w.filter fun a => !p a) = ρ a * op ρ (w.filter fun a => !p a) := by simp [op]
      rw [this, ← mul_assoc, ← mul_assoc]
      congr 1
      unfold op
      have hcomm : Commute (ρ a) ((w.filter p).map ρ).prod := by
        apply Commute.list_prod_right
        intro x hx
        obtain ⟨b, hb, rfl⟩ := List.mem_map.1 hx
        obtain ⟨hb1, hb2⟩ := List.mem_filter.1 hb
        exact (hc b (List.mem_cons_of_mem _ hb1) a (by simp) hb2 hp).symm
      exact hcomm

/-- Factors whose letters commute with those of all other factors may be separated. -/
theorem op_flatten {ρ : Nat → R} (fs : List (List Nat)) (w : List Nat) (hp : fs.flatten.Perm w) (hs : ∀ f ∈ fs, f.Sublist w) (hd : fs.Pairwise List.Disjoint)
    (hc : fs.Pairwise fun f g => ∀ a ∈ f, ∀ b ∈ g, ρ a * ρ b = ρ b * ρ a) : op ρ w = (fs.map (op ρ)).prod := by
  induction fs generalizing w with
  | nil =>
    have : w = [] := by simpa using hp.symm
    subst this; simp [op]
  | cons f fs ih =>
    rw [List.pairwise_cons] at hd hc
    have hfd : ∀ a ∈ fs.flatten, a ∉ f := by
      intro a ha haf
      obtain ⟨g, hg, hag⟩ := List.mem_flatten.1 ha
      exact hd.1 g hg haf hag
    have hpf : (fs.flatten.filter fun a => !decide (a ∈ f)) = fs.flatten := by
      rw [List.filter_eq_self]
      intro a ha
      simpa using hfd a ha
    have hpf' : (fs.flatten.filter fun a => decide (a ∈ f)) = [] := by
      rw [List.filter_eq_nil_iff]
      intro a ha
      simpa using hfd a ha
    have hff : (f.filter fun a => decide (a ∈ f)) = f := by rw [List.filter_eq_self]; intro a ha; simpa using ha
    have hff' : (f.filter fun a => !decide (a ∈ f)) = [] := by rw [List.filter_eq_nil_iff]; intro a ha; simpa using ha
    have h1 : (w.filter fun a => decide (a ∈ f)) = f := by
      have hsub : f.Sublist (w.filter fun a => decide (a ∈ f)) := by
        have := (hs f (by simp)).filter fun a => decide (a ∈ f)
        rwa [hff] at this
      refine (hsub.eq_of_length ?_).symm
      have := (hp.filter fun a => decide (a ∈ f)).length_eq
      rw [List.flatten_cons, List.filter_append, hff, hpf', List.append_nil] at this
      exact this
    have h2 : fs.flatten.Perm (w.filter fun a => !decide (a ∈ f)) := by
      have := hp.filter fun a => !decide (a ∈ f)
      rwa [List.flatten_cons, List.filter_append, hff', hpf, List.nil_append] at this
    rw [op_filter (fun a => decide (a ∈ f)) w, h1, List.map_cons, List.prod_cons, ih _ h2]
    · intro g hg
      have := (hs g (List.mem_cons_of_mem _ hg)).filter fun a => !decide (a ∈ f)
      have hgg : (g.filter fun a => !decide (a ∈ f)) = g := by
        rw [List.filter_eq_self]
        intro a ha
        simpa using fun haf => hd.1 g hg haf ha
      rwa [hgg] at this
    · exact hd.2
    · exact hc.2
    · intro a ha b hb hpa hpb
      have hpa' : a ∈ f := by simpa using hpa
      have hpb' : b ∉ f := by simpa using hpb
      have : b ∈ (f :: fs).flatten := hp.mem_iff.2 hb
      rw [List.flatten_cons, List.mem_append] at this
      rcases this with h | h
      · exact absurd h hpb'
      · obtain ⟨g, hg, hbg⟩ := List.mem_flatten.1 h
        exact hc.1 g hg a hpa' b hbg

/-- Independent factors. -/
theorem value_flatten (fs : List (List Nat)) (hr : ∀ f ∈ fs, InRange I f)
    (h : fs.Pairwise fun f g => ∀ a ∈ f, ∀ b ∈ g, ∀ x y, I.scenario.sdpLexorder[a]? = some x → I.scenario.sdpLexorder[b]? = some y → ¬ ShareCopy x y) :
    M.φ (op M.ρ fs.flatten) = (fs.map fun f => M.φ (op M.ρ f)).prod := by
  induction fs with
  | nil => simp [op, M.unit]
  | cons f fs ih =>
    rw [List.pairwise_cons] at h
    rw [List.flatten_cons, M.independent f fs.flatten (hr f (by simp)), ih (fun g hg => hr g (List.mem_cons_of_mem _ hg)) h.2]
    · simp
    · intro a ha
      obtain ⟨g, hg, hag⟩ := List.mem_flatten.1 ha
      exact hr g (List.mem_cons_of_mem _ hg) a hag
    · intro a ha b hb
      obtain ⟨g, hg, hbg⟩ := List.mem_flatten.1 hb
      exact h.1 g hg a ha b hbg

/-- The factors of a word, as `Moment_1d` obtains them. -/
def factorsOf (I : Input) (w : List Nat) : List (List Nat) :=
  ((factorize I.scenario (w.map (· - 1))).filter fun f => !f.isEmpty).map fun f => f.map (· + 1)

/-- The value of a word is the product of the values of its factors. -/
theorem value_factors {w : List Nat} (hw : InRange I w) (h0 : 0 ∉ w) (hcap : Capacity I.scenario (w.map (· - 1))) :
    (∀ f ∈ factorsOf I w, InRange I f) ∧ M.φ (op M.ρ w) = ((factorsOf I w).map fun f => M.φ (op M.ρ f)).prod := by
  by_cases hne : w = []
  · subst hne
    have : factorize I.scenario [] = [[]] := by simp [factorize]
    constructor
    · intro f hf
      simp [factorsOf, this] at hf
    · simp [factorsOf, this, op, M.unit]
  have hback : (w.map (· - 1)).map (· + 1) = w := by
    rw [List.map_map]
    conv_rhs => rw [← List.map_id w]
    apply List.map_congr_left
    intro a ha
    have : a ≠ 0 := fun e => h0 (e ▸ ha)
    simp only [Function.comp_apply, id]
    omega
  have hv : ∀ a ∈ w.map (· - 1), a < I.scenario.lexorder.length := by
    intro a ha
    obtain ⟨b, hb, rfl⟩ := List.mem_map.1 ha
    have := hw b hb
    have h1 : b ≠ 0 := fun e => h0 (e ▸ hb)
    unfold nOps at this
    omega
  obtain ⟨h1, h2, h3, _⟩ := C09_factorization I.scenario (w.map (· - 1)) (by simpa using hne) hv hcap
  have hfs : factorsOf I w = (factorize I.scenario (w.map (· - 1))).map fun f => f.map (· + 1) := by
    unfold factorsOf
    congr 1
    rw [List.filter_eq_self]
    intro f hf
    have := (h2 f hf).1
    simpa using this
  have hrange : ∀ f ∈ factorsOf I w, InRange I f := by
    intro f hf
    rw [hfs] at hf
    obtain ⟨g, hg, rfl⟩ := List.mem_map.1 hf
    intro x hx
    obtain ⟨y, hy, rfl⟩ := List.mem_map.1 hx
    have := hv y ((h2 g hg).2.subset hy)
    unfold nOps
    omega
  have hind : (factorsOf I w).Pairwise fun f g => ∀ a ∈ f, ∀ b ∈ g, ∀ x y, I.scenario.sdpLexorder[a]? = some x → I.scenario.sdpLexorder[b]? = some y → ¬ ShareCopy x y := by
    rw [hfs, List.pairwise_map, List.pairwise_iff_getElem]
    intro i j hi hj hij a ha b hb x y hx hy
    obtain ⟨a, ha', rfl⟩ := List.mem_map.1 ha
    obtain ⟨b, hb', rfl⟩ := List.mem_map.1 hb
    exact C09_factors_independent I.scenario _ hv hcap i j _ _ (List.getElem?_eq_getElem hi) (List.getElem?_eq_getElem hj) (by omega) a b ha' hb' x y
      (by simpa [Scenario.sdpLexorder] using hx) (by simpa [Scenario.sdpLexorder] using hy)
  refine ⟨hrange, ?_⟩
  rw [← value_flatten M _ hrange hind]
  congr 1
  have hflat : op M.ρ (factorsOf I w).flatten = ((factorsOf I w).map (op M.ρ)).prod := by
    unfold op
    rw [List.map_flatten, List.prod_flatten, List.map_map]; rfl
  rw [hflat]
  apply op_flatten
  · rw [hfs]
    have := h1.map (· + 1)
    rwa [List.map_flatten, hback] at this
  · intro f hf
    rw [hfs] at hf
    obtain ⟨g, hg, rfl⟩ := List.mem_map.1 hf
    have := (h2 g hg).2.map (· + 1)
    rwa [hback] at this
  · rw [hfs, List.pairwise_map]
    refine h3.imp ?_
    intro f g hd
    intro x hx hy
    obtain ⟨a, ha, rfl⟩ := List.mem_map.1 hx
    obtain ⟨b, hb, e⟩ := List.mem_map.1 hy
    have : b = a := by simpa using e
    subst this
    exact hd ha hb
  · refine List.Pairwise.imp_of_mem ?_ hind
    intro f g hf hg h a ha b hb
    have har := hrange f hf a ha
    have hbr := hrange g hg b hb
    apply M.operators.comm a b har hbr
    by_contra hn
    have hn' : notcomm I a b = true := by simpa using hn
    have hl : I.scenario.sdpLexorder.length = nOps I := by simp [Scenario.sdpLexorder, nOps]
    have hxa := List.getElem?_eq_getElem (l := I.scenario.sdpLexorder) (i := a) (by omega)
    have hyb := List.getElem?_eq_getElem (l := I.scenario.sdpLexorder) (i := b) (by omega)
    exact h a ha b hb _ _ hxa hyb (shareCopy_of_notcomm hn' hxa hyb)

theorem moment_eq_cval (m : Mon) : M.moment m = cval M.val m := rfl

/-- The moment of a word has the value of the word, or the conjugate value. -/
theorem momentOf_value {ch : Choice} (hch : ch.Computed I) (name : Atom → String) {w : List Nat} (hw : InRange I w) (hcap : 0 ∉ w → Capacity I.scenario (w.map (· - 1))) :
    M.moment (momentOf I ch name w) = M.φ (op M.ρ w) ∨ M.moment (momentOf I ch name w) = (starRingEnd ℂ) (M.φ (op M.ρ w)) := by
  unfold momentOf
  split
  · rename_i h0
    rw [List.contains_iff_mem] at h0
    left
    have h1 : op M.ρ w = 0 := by
      unfold op
      apply List.prod_eq_zero
      exact List.mem_map.2 ⟨0, h0, M.operators.zero⟩
    have h2 : M.moment [[0]] = M.val [0] := by simp [InflatedModel.moment]
    rw [h1, map_zero, h2, val_zero M (by simp [isZero])]
  · rename_i h0
    have h0' : 0 ∉ w := by simpa [List.contains_iff_mem] using h0
    obtain ⟨h1, h2⟩ := value_factors M hw h0' (hcap h0')
    rw [moment_eq_cval]
    have h3 : cval M.val (((factorize I.scenario (w.map (· - 1))).filter fun f => !f.isEmpty).map fun f => ch.atomOf (f.map (· + 1))) = M.φ (op M.ρ w) := by
      rw [h2]
      unfold cval factorsOf
      rw [List.map_map, List.map_map]
      congr 1
      apply List.map_congr_left
      intro f hf
      have hr : InRange I (f.map (· + 1)) := h1 _ (List.mem_map.2 ⟨f, hf, rfl⟩)
      obtain ⟨q1, q2⟩ := atomOf_sound M (hch.atomOf _ hr) hr
      show M.val (ch.atomOf (f.map (· + 1))) = M.φ (op M.ρ (f.map (· + 1)))
      unfold InflatedModel.val
      rw [if_pos q1, q2]
    rw [← h3]
    refine cval_monFromAtoms (protoEnv I ch name) M.val (fun a => dagger_value M hch a) (val_nil M) (fun a ha => val_zero M ha) _

/-- The number of the moment of a word. -/
theorem momentOf_re {ch : Choice} (hch : ch.Computed I) (name : Atom → String) {w : List Nat} (hw : InRange I w) (hcap : 0 ∉ w → Capacity I.scenario (w.map (· - 1))) :
    M.value (momentOf I ch name w) = (M.φ (op M.ρ w)).re := re_of_or (momentOf_value M hch name hw hcap)

end Verif.SdpEnd
