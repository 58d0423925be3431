import Verif.SdpNames.Words
import Verif.SdpNames.Text
import Verif.Distinct.Glue
import Verif.SdpEnd.Unit
/-!
Two words that cannot be simplified and have the same moment are related by a relabelling of the copies and exchanges of commuting neighbours, one of them possibly reversed.
-/
namespace Verif.Generate
open Verif.Common Verif.Canon Verif.Canon.Spec Verif.Scenario Verif.Components Verif.Moment Verif.MomentMatrix Verif.SymMM Verif.SdpRepr Verif.SdpEnd Verif.SdpNames Verif.Symmetry
open Verif.State (Dict Mon)
open Verif.EndToEnd (Input)

variable {I : Input}

/-- The operators of two words have no copy of a source in common. -/
def Apart (I : Input) (u v : List Nat) : Prop :=
  ∀ x ∈ u, ∀ y ∈ v, ∀ a b, I.scenario.sdpLexorder[x]? = some a → I.scenario.sdpLexorder[y]? = some b → ¬ ShareCopy a b

theorem Apart.symm {u v : List Nat} (h : Apart I u v) : Apart I v u := by
  intro x hx y hy a b ha hb ⟨s, c, h0, h1, h2⟩
  exact h y hy x hx b a hb ha ⟨s, c, h0, h2, h1⟩

theorem Apart.comm {u v : List Nat} (h : Apart I u v) (hu : InRange I u) (hv : InRange I v) : ∀ a ∈ u, ∀ b ∈ v, notcomm I a b = false := by
  intro a ha b hb
  by_contra hn
  have hn' : notcomm I a b = true := by simpa using hn
  have hl : I.scenario.sdpLexorder.length = nOps I := by simp [Scenario.sdpLexorder, nOps]
  have hxa := List.getElem?_eq_getElem (l := I.scenario.sdpLexorder) (i := a) (by have := hu a ha; omega)
  have hyb := List.getElem?_eq_getElem (l := I.scenario.sdpLexorder) (i := b) (by have := hv b hb; omega)
  exact h a ha b hb _ _ hxa hyb (shareCopy_of_notcomm hn' hxa hyb)

/-- A word is, up to exchanges of commuting neighbours, the product of words without common copies. -/
structure Splits (I : Input) (w : List Nat) (fs : List (List Nat)) : Prop where
  eq : CommEq (fun a b => notcomm I a b = false) w fs.flatten
  apart : fs.Pairwise (Apart I)
  range : ∀ f ∈ fs, InRange I f
  nonzero : ∀ f ∈ fs, 0 ∉ f

theorem commEq_flatten {nc : BMat} (hsym : ∀ a b, nc a b = nc b a) (fs : List (List Nat)) (w : List Nat) (hp : fs.flatten.Perm w) (hs : ∀ f ∈ fs, f.Sublist w) (hd : fs.Pairwise List.Disjoint)
    (hc : fs.Pairwise fun f g => ∀ a ∈ f, ∀ b ∈ g, nc a b = false) : CommEq (fun a b => nc a b = false) w fs.flatten := by
  induction fs generalizing w with
  | nil =>
    have : w = [] := by simpa using hp.symm
    subst this; exact .refl _
  | cons f fs ih =>
    rw [List.pairwise_cons] at hd hc
    have hfd : ∀ a ∈ fs.flatten, a ∉ f := by
      intro a ha haf
      obtain ⟨g, hg, hag⟩ := List.mem_flatten.1 ha
      exact hd.1 g hg haf hag
    have hpf : (fs.flatten.filter fun a => !decide (a ∈ f)) = fs.flatten := by
      rw [List.filter_eq_self]
      intro a ha
      simpa using hfd a ha
    have hpf' : (fs.flatten.filter fun a => decide (a ∈ f)) = [] := by
      rw [List.filter_eq_nil_iff]
      intro a ha
      simpa using hfd a ha
    have hff : (f.filter fun a => decide (a ∈ f)) = f := by rw [List.filter_eq_self]; intro a ha; simpa using ha
    have hff' : (f.filter fun a => !decide (a ∈ f)) = [] := by rw [List.filter_eq_nil_iff]; intro a ha; simpa using ha
    have h1 : (w.filter fun a => decide (a ∈ f)) = f := by
      have hsub : f.Sublist (w.filter fun a => decide (a ∈ f)) := by
        have := (hs f (by simp)).filter fun a => decide (a ∈ f)
        rwa [hff] at this
      refine (hsub.eq_of_length ?_).symm
      have := (hp.filter fun a => decide (a ∈ f)).length_eq
      rw [List.flatten_cons, List.filter_append, hff, hpf', List.append_nil] at this
      exact this
    have h2 : fs.flatten.Perm (w.filter fun a => !decide (a ∈ f)) := by
      have := hp.filter fun a => !decide (a ∈ f)
      rwa [List.flatten_cons, List.filter_append, hff', hpf, List.nil_append] at this
    have hfil := commEq_filter (nc := nc) (fun a => decide (a ∈ f)) w (by
      intro a ha b hb hpa hpb
      have hpa' : a ∈ f := by simpa using hpa
      have hpb' : b ∉ f := by simpa using hpb
      have : b ∈ (f :: fs).flatten := hp.mem_iff.2 hb
      rw [List.flatten_cons, List.mem_append] at this
      rcases this with h | h
      · exact absurd h hpb'
      · obtain ⟨g, hg, hbg⟩ := List.mem_flatten.1 h
        exact hc.1 g hg a hpa' b hbg) hsym
    rw [h1] at hfil
    have hih := ih _ h2 (by
      intro g hg
      have := (hs g (List.mem_cons_of_mem _ hg)).filter fun a => !decide (a ∈ f)
      have hgg : (g.filter fun a => !decide (a ∈ f)) = g := by
        rw [List.filter_eq_self]
        intro a ha
        simpa using fun haf => hd.1 g hg haf ha
      rwa [hgg] at this) hd.2 hc.2
    rw [List.flatten_cons]
    exact hfil.trans (CommEq.append_left f hih)

/-- The factors of a word. -/
theorem splits_factors (hS : copiesOf I.scenario ≤ 254) {w : List Nat} (hw : InRange I w) (h0 : 0 ∉ w) : Splits I w (factorsOf I w) := by
  have hcap := capacity_word hS hw h0
  by_cases hne : w = []
  · subst hne
    have : factorsOf I [] = [] := by simp [factorsOf, factorize]
    rw [this]
    exact ⟨.refl _, .nil, by simp, by simp⟩
  have hback : (w.map (· - 1)).map (· + 1) = w := by
    rw [List.map_map]
    conv_rhs => rw [← List.map_id w]
    apply List.map_congr_left
    intro a ha
    have : a ≠ 0 := fun e => h0 (e ▸ ha)
    simp only [Function.comp_apply, id]
    omega
  have hv : ∀ a ∈ w.map (· - 1), a < I.scenario.lexorder.length := by
    intro a ha
    obtain ⟨b, hb, rfl⟩ := List.mem_map.1 ha
    have := hw b hb
    have h1 : b ≠ 0 := fun e => h0 (e ▸ hb)
    unfold nOps at this
    omega
  obtain ⟨h1, h2, h3, _⟩ := C09_factorization I.scenario (w.map (· - 1)) (by simpa using hne) hv hcap
  have hfs : factorsOf I w = (factorize I.scenario (w.map (· - 1))).map fun f => f.map (· + 1) := by
    unfold factorsOf
    congr 1
    rw [List.filter_eq_self]
    intro f hf
    have := (h2 f hf).1
    simpa using this
  have hrange : ∀ f ∈ factorsOf I w, InRange I f := by
    intro f hf
    rw [hfs] at hf
    obtain ⟨g, hg, rfl⟩ := List.mem_map.1 hf
    intro x hx
    obtain ⟨y, hy, rfl⟩ := List.mem_map.1 hx
    have := hv y ((h2 g hg).2.subset hy)
    unfold nOps
    omega
  have hind : (factorsOf I w).Pairwise (Apart I) := by
    rw [hfs, List.pairwise_map, List.pairwise_iff_getElem]
    intro i j hi hj hij a ha b hb x y hx hy
    obtain ⟨a, ha', rfl⟩ := List.mem_map.1 ha
    obtain ⟨b, hb', rfl⟩ := List.mem_map.1 hb
    exact C09_factors_independent I.scenario _ hv hcap i j _ _ (List.getElem?_eq_getElem hi) (List.getElem?_eq_getElem hj) (by omega) a b ha' hb' x y
      (by simpa [Scenario.sdpLexorder] using hx) (by simpa [Scenario.sdpLexorder] using hy)
  refine ⟨?_, hind, hrange, ?_⟩
  · apply commEq_flatten (operatorList I).nc_symm
    · rw [hfs]
      have := h1.map (· + 1)
      rwa [List.map_flatten, hback] at this
    · intro f hf
      rw [hfs] at hf
      obtain ⟨g, hg, rfl⟩ := List.mem_map.1 hf
      have := (h2 g hg).2.map (· + 1)
      rwa [hback] at this
    · rw [hfs, List.pairwise_map]
      refine h3.imp ?_
      intro f g hd
      intro x hx hy
      obtain ⟨a, ha, rfl⟩ := List.mem_map.1 hx
      obtain ⟨b, hb, e⟩ := List.mem_map.1 hy
      have : b = a := by simpa using e
      subst this
      exact hd ha hb
    · refine List.Pairwise.imp_of_mem ?_ hind
      intro f g hf hg h
      exact h.comm (hrange f hf) (hrange g hg)
  · intro f hf
    rw [hfs] at hf
    obtain ⟨g, hg, rfl⟩ := List.mem_map.1 hf
    simp

/-- Words that commute letter by letter may be exchanged. -/
theorem commEq_exchange {nc : BMat} (u v : List Nat) (h : ∀ a ∈ u, ∀ b ∈ v, nc a b = false) : CommEq (fun a b => nc a b = false) (u ++ v) (v ++ u) := by
  induction u with
  | nil => simp; exact .refl _
  | cons a u ih =>
    have h1 := CommEq.append_left [a] (ih fun x hx => h x (List.mem_cons_of_mem _ hx))
    have hmove : ∀ l : List Nat, (∀ x ∈ l, nc a x = false) → ∀ t, CommEq (fun a b => nc a b = false) (a :: (l ++ t)) (l ++ a :: t) := by
      intro l
      induction l with
      | nil => intro _ t; exact .refl _
      | cons x l ih =>
        intro h t
        have h1 : CommEq (fun a b => nc a b = false) ([] ++ a :: x :: (l ++ t)) ([] ++ x :: a :: (l ++ t)) := .swap [] a x (l ++ t) (h x (by simp))
        exact h1.trans (CommEq.append_left [x] (ih (fun y hy => h y (List.mem_cons_of_mem _ hy)) t))
    exact h1.trans (hmove v (fun x hx => h a (by simp) x hx) u)

theorem Splits.perm {w : List Nat} {fs gs : List (List Nat)} (h : Splits I w fs) (hp : fs.Perm gs) : Splits I w gs := by
  have hap : gs.Pairwise (Apart I) := (hp.pairwise_iff fun {a b} h => Apart.symm h).1 h.apart
  refine ⟨h.eq.trans ?_, hap, fun f hf => h.range f (hp.mem_iff.2 hf), fun f hf => h.nonzero f (hp.mem_iff.2 hf)⟩
  have hr := h.range
  have ha := h.apart
  clear h hap
  induction hp with
  | nil => exact .refl _
  | cons x _ ih =>
    rw [List.pairwise_cons] at ha
    simpa using CommEq.append_left x (ih (fun f hf => hr f (List.mem_cons_of_mem _ hf)) ha.2)
  | swap x y l =>
    rw [List.pairwise_cons, List.pairwise_cons] at ha
    have := CommEq.append_right l.flatten (commEq_exchange y x ((ha.1 x (by simp)).comm (hr y (by simp)) (hr x (by simp))))
    simpa using this
  | trans p1 p2 ih1 ih2 =>
    exact (ih1 hr ha).trans (ih2 (fun f hf => hr f (p1.mem_iff.2 hf)) ((p1.pairwise_iff fun {a b} h => Apart.symm h).1 ha))

theorem Splits.reverse {w : List Nat} {fs : List (List Nat)} (h : Splits I w fs) : Splits I w.reverse (fs.map List.reverse) := by
  have h1 : Splits I w.reverse (fs.map List.reverse).reverse := by
    refine ⟨?_, ?_, ?_, ?_⟩
    · have := commEq_reverse (operatorList I).nc_symm h.eq
      rwa [List.reverse_flatten] at this
    · rw [List.pairwise_reverse, List.pairwise_map]
      refine h.apart.imp ?_
      intro a b hab x hx y hy
      exact hab.symm x (by simpa using hx) y (by simpa using hy)
    · intro f hf
      obtain ⟨g, hg, rfl⟩ := List.mem_map.1 (List.mem_reverse.1 hf)
      exact inRange_reverse.2 (h.range g hg)
    · intro f hf
      obtain ⟨g, hg, rfl⟩ := List.mem_map.1 (List.mem_reverse.1 hf)
      simpa using h.nonzero g hg
  exact h1.perm (List.reverse_perm _)

/-- The symmetry that belongs to a relabelling. -/
theorem act_rank {σ : Nat → Nat → Nat} (hσ : Relabelling I.scenario σ) {x : Nat} (hx : x < nOps I) (h0 : x ≠ 0) {a : Op} (ha : I.scenario.sdpLexorder[x]? = some a) :
    I.scenario.sdpLexorder[(padRow (inducedRow I.scenario σ)).getD x x]? = some (Verif.Symmetry.act σ a) := by
  have hr : inducedRow I.scenario σ ∈ lexorderSymmetries I.scenario := (Verif.Symmetry.mem_symmetries _).2 ⟨σ, hσ, rfl⟩
  rw [padRow_get hr hx h0]
  obtain ⟨k, rfl⟩ := Nat.exists_eq_succ_of_ne_zero h0
  have ha' : I.scenario.lexorder[k]? = some a := by simpa [Scenario.sdpLexorder] using ha
  simpa [Scenario.sdpLexorder] using Distinct.row_get hσ ha'

/-- Relabellings of words without common copies, with images without common copies, are restrictions of one relabelling. -/
theorem glue_words (ps : List (List Nat × (Nat → Nat → Nat))) (hσ : ∀ p ∈ ps, Relabelling I.scenario p.2) (hr : ∀ p ∈ ps, InRange I p.1) (h0 : ∀ p ∈ ps, 0 ∉ p.1)
    (ha : ps.Pairwise fun p q => Apart I p.1 q.1)
    (hi : ps.Pairwise fun p q => Apart I (p.1.map fun x => (padRow (inducedRow I.scenario p.2)).getD x x) (q.1.map fun x => (padRow (inducedRow I.scenario q.2)).getD x x)) :
    ∃ σ, Relabelling I.scenario σ ∧ ∀ p ∈ ps, ∀ x ∈ p.1, (padRow (inducedRow I.scenario σ)).getD x x = (padRow (inducedRow I.scenario p.2)).getD x x := by
  have hl : I.scenario.sdpLexorder.length = nOps I := by simp [Scenario.sdpLexorder, nOps]
  have at' : ∀ {x : Nat}, x < nOps I → ∃ a, I.scenario.sdpLexorder[x]? = some a := fun {x} hx => ⟨_, List.getElem?_eq_getElem (by omega)⟩
  have valid : ∀ {x : Nat} {a : Op}, x ≠ 0 → I.scenario.sdpLexorder[x]? = some a → Valid I.scenario a := by
    intro x a hx ha
    obtain ⟨k, rfl⟩ := Nat.exists_eq_succ_of_ne_zero hx
    exact (mem_lexorder _).1 (List.mem_of_getElem? (i := k) (by simpa [Scenario.sdpLexorder] using ha))
  have same : ∀ {σ τ : Nat → Nat → Nat}, Relabelling I.scenario σ → Relabelling I.scenario τ → ∀ {x : Nat} {a : Op}, x < nOps I → x ≠ 0 → I.scenario.sdpLexorder[x]? = some a →
      Verif.Symmetry.act σ a = Verif.Symmetry.act τ a → (padRow (inducedRow I.scenario σ)).getD x x = (padRow (inducedRow I.scenario τ)).getD x x := by
    intro σ τ hσ hτ x a hx hx0 ha e
    have hr1 : inducedRow I.scenario σ ∈ lexorderSymmetries I.scenario := (Verif.Symmetry.mem_symmetries _).2 ⟨σ, hσ, rfl⟩
    have hr2 : inducedRow I.scenario τ ∈ lexorderSymmetries I.scenario := (Verif.Symmetry.mem_symmetries _).2 ⟨τ, hτ, rfl⟩
    rw [padRow_get hr1 hx hx0, padRow_get hr2 hx hx0]
    obtain ⟨k, rfl⟩ := Nat.exists_eq_succ_of_ne_zero hx0
    have ha' : I.scenario.lexorder[k]? = some a := by simpa [Scenario.sdpLexorder] using ha
    have q1 := Distinct.row_get hσ ha'
    have q2 := Distinct.row_get hτ ha'
    rw [← e] at q2
    have := Distinct.rank_unique q1 q2
    simpa using this
  induction ps with
  | nil =>
    obtain ⟨σ, hσ, -⟩ := (Verif.Symmetry.mem_symmetries I.scenario).1 (Verif.Orbits.symmetries_isGroup I.scenario).id_mem
    exact ⟨σ, hσ, by simp⟩
  | cons p ps ih =>
    rw [List.pairwise_cons] at ha hi
    obtain ⟨τ, hτ, hτe⟩ := ih (fun q hq => hσ q (List.mem_cons_of_mem _ hq)) (fun q hq => hr q (List.mem_cons_of_mem _ hq)) (fun q hq => h0 q (List.mem_cons_of_mem _ hq)) ha.2 hi.2
    have hp := hσ p (by simp)
    obtain ⟨ρ, hρ, e1, e2⟩ := Distinct.glue hp hτ (fun op => ∃ x ∈ p.1, I.scenario.sdpLexorder[x]? = some op) (fun op => ∃ q ∈ ps, ∃ x ∈ q.1, I.scenario.sdpLexorder[x]? = some op)
      (by rintro op ⟨x, hx, e⟩; exact valid (fun h => h0 p (by simp) (h ▸ hx)) e)
      (by rintro op ⟨q, hq, x, hx, e⟩; exact valid (fun h => h0 q (List.mem_cons_of_mem _ hq) (h ▸ hx)) e)
      (by rintro a b ⟨x, hx, e⟩ ⟨q, hq, y, hy, e'⟩; exact ha.1 q hq x hx y hy a b e e')
      (by
        rintro a b ⟨x, hx, e⟩ ⟨q, hq, y, hy, e'⟩
        have hx0 : x ≠ 0 := fun h => h0 p (by simp) (h ▸ hx)
        have hy0 : y ≠ 0 := fun h => h0 q (List.mem_cons_of_mem _ hq) (h ▸ hy)
        have q1 := act_rank hp (hr p (by simp) x hx) hx0 e
        have q2 := act_rank hτ (hr q (List.mem_cons_of_mem _ hq) y hy) hy0 e'
        rw [hτe q hq y hy] at q2
        exact hi.1 q hq _ (List.mem_map.2 ⟨x, hx, rfl⟩) _ (List.mem_map.2 ⟨y, hy, rfl⟩) _ _ q1 q2)
    refine ⟨ρ, hρ, ?_⟩
    intro q hq x hx
    obtain ⟨a, hax⟩ := at' (hr q hq x hx)
    have hx0 : x ≠ 0 := fun h => h0 q hq (h ▸ hx)
    rcases List.mem_cons.1 hq with rfl | hq'
    · exact same hρ hp (hr q hq x hx) hx0 hax (e1 a ⟨x, hx, hax⟩)
    · rw [← hτe q hq' x hx]
      exact same hρ hτ (hr q hq x hx) hx0 hax (e2 a ⟨q, hq', x, hx, hax⟩)

/-- Products of words without common copies whose factors are related by symmetries are related by a symmetry. -/
theorem splits_orbit {w v : List Nat} {fs gs : List (List Nat)} (hf : Splits I w fs) (hg : Splits I v gs) (h : List.Forall₂ (SdpRepr.SameOrbit (notcomm I) (symmetries I)) fs gs) :
    SdpRepr.SameOrbit (notcomm I) (symmetries I) w v := by
  -- a relabelling for each factor
  have hps : ∃ ps : List (List Nat × (Nat → Nat → Nat)), ps.map Prod.fst = fs ∧ (∀ p ∈ ps, Relabelling I.scenario p.2) ∧
      List.Forall₂ (fun p g => CommEq (fun a b => notcomm I a b = false) (p.1.map fun x => (padRow (inducedRow I.scenario p.2)).getD x x) g) ps gs := by
    clear hf hg
    induction h with
    | nil => exact ⟨[], rfl, by simp, .nil⟩
    | cons h _ ih =>
      obtain ⟨ps, e1, e2, e3⟩ := ih
      obtain ⟨r, hr, e⟩ := h
      obtain ⟨r', hr', rfl⟩ := List.mem_map.1 hr
      obtain ⟨σ, hσ, rfl⟩ := (Verif.Symmetry.mem_symmetries _).1 hr'
      refine ⟨(_, σ) :: ps, by rw [List.map_cons, e1], ?_, .cons e e3⟩
      intro p hp
      rcases List.mem_cons.1 hp with rfl | hp
      · exact hσ
      · exact e2 p hp
  obtain ⟨ps, rfl, hσ, hF⟩ := hps
  have hmem : ∀ p ∈ ps, p.1 ∈ ps.map Prod.fst := fun p hp => List.mem_map.2 ⟨p, hp, rfl⟩
  obtain ⟨σ, hσ', hall⟩ := glue_words ps hσ (fun p hp => hf.range _ (hmem p hp)) (fun p hp => hf.nonzero _ (hmem p hp)) (List.pairwise_map.1 hf.apart) (by
    rw [List.forall₂_iff_get] at hF
    rw [List.pairwise_iff_getElem]
    intro i j hi hj hij x hx y hy
    have hgi := List.pairwise_iff_getElem.1 hg.apart i j (by rw [← hF.1]; exact hi) (by rw [← hF.1]; exact hj) hij
    have c1 := hF.2 i hi (by rw [← hF.1]; exact hi)
    have c2 := hF.2 j hj (by rw [← hF.1]; exact hj)
    exact hgi x (c1.perm.mem_iff.1 hx) y (c2.perm.mem_iff.1 hy))
  refine ⟨padRow (inducedRow I.scenario σ), List.mem_map.2 ⟨_, (Verif.Symmetry.mem_symmetries _).2 ⟨σ, hσ', rfl⟩, rfl⟩, ?_⟩
  have hmap : ∀ {u v : List Nat}, InRange I u → CommEq (fun a b => notcomm I a b = false) u v →
      CommEq (fun a b => notcomm I a b = false) (u.map fun x => (padRow (inducedRow I.scenario σ)).getD x x) (v.map fun x => (padRow (inducedRow I.scenario σ)).getD x x) := fun _ e =>
    (symData I).commEq (List.mem_map.2 ⟨_, (Verif.Symmetry.mem_symmetries _).2 ⟨σ, hσ', rfl⟩, rfl⟩) e
  have hw : InRange I w := fun x hx => by
    obtain ⟨f, hf', hx'⟩ := List.mem_flatten.1 (hf.eq.perm.mem_iff.1 hx)
    exact hf.range f hf' x hx'
  refine (hmap hw hf.eq).trans (CommEq.trans ?_ hg.eq.symm)
  clear hf hg hmap hw hmem hσ h
  induction hF with
  | nil => exact .refl _
  | @cons p g ps gs h _ ih =>
    have e1 := ih fun q hq => hall q (List.mem_cons_of_mem _ hq)
    have e2 : (p.1.map fun x => (padRow (inducedRow I.scenario σ)).getD x x) = p.1.map fun x => (padRow (inducedRow I.scenario p.2)).getD x x :=
      List.map_congr_left fun x hx => hall p (by simp) x hx
    rw [List.map_cons, List.flatten_cons, List.flatten_cons, List.map_append, e2]
    exact (CommEq.append_right _ h).trans (CommEq.append_left g e1)

/-- A symmetry of a reversed word. -/
theorem orbit_reverse {u v : List Nat} (h : SdpRepr.SameOrbit (notcomm I) (symmetries I) u v) : SdpRepr.SameOrbit (notcomm I) (symmetries I) u.reverse v.reverse := by
  obtain ⟨r, hr, e⟩ := h
  refine ⟨r, hr, ?_⟩
  have := commEq_reverse (operatorList I).nc_symm e
  rwa [← List.map_reverse] at this

/-- The adjoint of a representative belongs to the reversed word. -/
theorem dagger_orbit {ch : Choice} (hch : UsualChoice ch I) {a : Atom} (h : Representative I a) : SdpRepr.SameOrbit (notcomm I) (symmetries I) a.reverse (ch.dagger a) := by
  obtain ⟨m, hm, e⟩ := hch.dagger a h.range h.reduced
  rw [e]
  have h1 : InRange I a.reverse := inRange_reverse.2 h.range
  unfold conjugate
  split
  · rename_i hc
    refine sameOrbit_of_commEq (symData I) h1 ?_
    have hall : ∀ x ∈ a, ∀ y ∈ a, notcomm I x y = false := by
      unfold allCommuting at hc
      rw [Bool.or_eq_true] at hc
      rcases hc with h2 | hc
      · intro x _ y _
        exact (allCommute_iff I).1 h2 x y
      · intro x hx y hy
        by_contra hn
        have hn' : notcomm I x y = true := by simpa using hn
        rw [Bool.not_eq_true', List.any_eq_false] at hc
        exact hc x hx (List.any_eq_true.2 ⟨y, hy, hn'⟩)
    clear hc h1 hm e h
    induction a with
    | nil => exact .refl _
    | cons x a ih =>
      rw [List.reverse_cons]
      have h1 := CommEq.append_right [x] (ih fun y hy z hz => hall y (List.mem_cons_of_mem _ hy) z (List.mem_cons_of_mem _ hz))
      exact h1.trans (commEq_exchange a [x] fun y hy z hz => hall y (List.mem_cons_of_mem _ hy) z (by rw [List.mem_singleton.1 hz]; simp))
  · exact (usual_least hm true h1 (Positivity.reduced_reverse (operatorList I).nc_symm h.reduced)).1

/-- The atoms of a word: a splitting of the word into words with these representatives. -/
def HasAtoms (I : Input) (w : List Nat) (as : List Atom) : Prop :=
  ∃ fs, Splits I w fs ∧ List.Forall₂ (SdpRepr.SameOrbit (notcomm I) (symmetries I)) fs as

theorem HasAtoms.orbit {w v : List Nat} {as bs : List Atom} (h1 : HasAtoms I w as) (h2 : HasAtoms I v bs) (hp : as.Perm bs) : SdpRepr.SameOrbit (notcomm I) (symmetries I) w v := by
  obtain ⟨fs, hs, hf⟩ := h1
  obtain ⟨gs, hs', hg⟩ := h2
  obtain ⟨gs', hg', hp'⟩ := List.perm_comp_forall₂ hp hg.flip
  refine splits_orbit hs (hs'.perm hp'.symm) ?_
  have hr := hs.range
  have hr' := (hs'.perm hp'.symm).range
  clear hs hs' hg hp' hp
  induction hf generalizing gs' with
  | nil => cases hg'; exact .nil
  | cons h _ ih =>
    cases hg' with
    | cons h' t =>
      refine .cons ?_ (ih _ t (fun f hf => hr f (List.mem_cons_of_mem _ hf)) fun f hf => hr' f (List.mem_cons_of_mem _ hf))
      exact sameOrbit_trans (symData I) (hr _ (List.mem_cons_self ..)) h (sameOrbit_symm (symData I) (hr' _ (List.mem_cons_self ..)) h')

theorem HasAtoms.dagger {ch : Choice} (hch : UsualChoice ch I) {w : List Nat} {as : List Atom} (h : HasAtoms I w as) (hr : ∀ a ∈ as, Representative I a) :
    HasAtoms I w.reverse (as.map ch.dagger) := by
  obtain ⟨fs, hs, hf⟩ := h
  refine ⟨fs.map List.reverse, hs.reverse, ?_⟩
  rw [List.forall₂_map_left_iff, List.forall₂_map_right_iff]
  have hrange := hs.range
  clear hs
  induction hf with
  | nil => exact .nil
  | cons h _ ih =>
    refine .cons ?_ (ih (fun a ha => hr a (List.mem_cons_of_mem _ ha)) fun f hf => hrange f (List.mem_cons_of_mem _ hf))
    exact sameOrbit_trans (symData I) (inRange_reverse.2 (hrange _ (List.mem_cons_self ..))) (orbit_reverse h) (dagger_orbit hch (hr _ (List.mem_cons_self ..)))

theorem HasAtoms.perm {w : List Nat} {as bs : List Atom} (h : HasAtoms I w as) (hp : as.Perm bs) : HasAtoms I w bs := by
  obtain ⟨fs, hs, hf⟩ := h
  obtain ⟨gs, hg, hp'⟩ := List.perm_comp_forall₂ hp.symm hf.flip
  exact ⟨gs, hs.perm hp'.symm, hg.flip⟩

/-- The atoms of the moment of a word are those of the word or of the reversed word. -/
theorem momentOf_atoms {ch : Choice} (hch : UsualChoice ch I) (name : Atom → String) (hS : copiesOf I.scenario ≤ 254) {w : List Nat} (hw : InRange I w) (h0 : 0 ∉ w)
    (hr : Reduced (notcomm I) (orthomat I) w) : HasAtoms I w (momentOf I ch name w) ∨ HasAtoms I w.reverse (momentOf I ch name w) := by
  have hfac := factors_reduced hw h0 (capacity_word hS hw h0) hr
  have hrep : ∀ f ∈ factorsOf I w, IsLeast (notcomm I) (symmetries I) f (ch.atomOf f) ∧ Plain I (ch.atomOf f) := by
    intro f hf
    obtain ⟨q1, q2, q3, q4⟩ := hfac f hf
    have hl := usualAtom_least (hch.atomOf _ q1 q4) q1 q4
    refine ⟨hl, representative_of_least q1 q4 hl, ?_, ?_⟩
    · intro e
      have := sameOrbit_length hl.1
      rw [e] at this
      exact q2 (List.eq_nil_of_length_eq_zero this)
    · obtain ⟨r, hr', e⟩ := hl.1
      intro hz
      obtain ⟨x, hx, hx0⟩ := List.mem_map.1 (e.perm.mem_iff.2 hz)
      obtain ⟨r', hr'', rfl⟩ := List.mem_map.1 hr'
      have hx' : x ≠ 0 := fun h => q3 (h ▸ hx)
      rw [padRow_get hr'' (q1 x hx) hx'] at hx0
      omega
  have hA : HasAtoms I w ((factorsOf I w).map ch.atomOf) := by
    refine ⟨_, splits_factors hS hw h0, ?_⟩
    rw [List.forall₂_map_right_iff]
    exact List.forall₂_same.2 fun f hf => (hrep f hf).1.1
  have hm : momentOf I ch name w = SdpState.monFromAtoms (protoEnv I ch name) ((factorsOf I w).map ch.atomOf) := by
    unfold momentOf factorsOf
    rw [if_neg (by simpa [List.contains_iff_mem] using h0), List.map_map]
    rfl
  have hplain : ∀ a ∈ (factorsOf I w).map ch.atomOf, Plain I a := by
    intro a ha
    obtain ⟨f, hf, rfl⟩ := List.mem_map.1 ha
    exact (hrep f hf).2
  rw [hm]
  have hnone : ((factorsOf I w).map ch.atomOf).find? (protoEnv I ch name).info.zero = none := by
    rw [List.find?_eq_none]
    intro a ha
    have := (hplain a ha).nonzero
    simpa [protoEnv, atomInfo, isZero] using this
  have hfil : (((factorsOf I w).map ch.atomOf).filter fun a => !a.isEmpty) = (factorsOf I w).map ch.atomOf := by
    rw [List.filter_eq_self]
    intro a ha
    simpa using (hplain a ha).ne
  unfold SdpState.monFromAtoms
  dsimp only
  rw [hnone]
  dsimp only
  rw [hfil]
  have hA' := hA.perm (sortBy_perm atomLe _).symm
  split
  · exact .inl hA'
  · right
    refine (hA'.dagger hch fun a ha => (hplain a ((sortBy_perm atomLe _).mem_iff.1 ha)).repr).perm (sortBy_perm atomLe _).symm

/-- **Words with the same moment.** -/
theorem orbit_of_moment {ch : Choice} (hch : UsualChoice ch I) (name : Atom → String) (hS : copiesOf I.scenario ≤ 254) {w v : List Nat} (hw : InRange I w) (hw0 : 0 ∉ w)
    (hwr : Reduced (notcomm I) (orthomat I) w) (hv : InRange I v) (hv0 : 0 ∉ v) (hvr : Reduced (notcomm I) (orthomat I) v) (h : momentOf I ch name w = momentOf I ch name v) :
    SdpRepr.SameOrbit (notcomm I) (symmetries I) w v ∨ SdpRepr.SameOrbit (notcomm I) (symmetries I) w v.reverse := by
  have h1 := momentOf_atoms hch name hS hw hw0 hwr
  have h2 := momentOf_atoms hch name hS hv hv0 hvr
  rw [← h] at h2
  rcases h1 with h1 | h1
  · rcases h2 with h2 | h2
    · exact .inl (h1.orbit h2 (.refl _))
    · exact .inr (h1.orbit h2 (.refl _))
  · rcases h2 with h2 | h2
    · have := orbit_reverse (h1.orbit h2 (.refl _))
      rw [List.reverse_reverse] at this
      exact .inr this
    · have := orbit_reverse (h1.orbit h2 (.refl _))
      rw [List.reverse_reverse, List.reverse_reverse] at this
      exact .inl this

/-- The moment of a word without the zero operator is not the zero moment. -/
theorem momentOf_ne_zero {ch : Choice} (hch : UsualChoice ch I) (name : Atom → String) (hS : copiesOf I.scenario ≤ 254) {w : List Nat} (hw : InRange I w) (h0 : 0 ∉ w)
    (hr : Reduced (notcomm I) (orthomat I) w) : momentOf I ch name w ≠ [[0]] := by
  intro e
  have key : ∀ {u : List Nat}, HasAtoms I u [[0]] → False := by
    rintro u ⟨fs, hs, hf⟩
    cases hf with
    | cons h t =>
      obtain ⟨r, hr', e⟩ := h
      obtain ⟨x, hx, hx0⟩ := List.mem_map.1 (e.perm.mem_iff.2 (List.mem_singleton.2 rfl))
      obtain ⟨r', hr'', rfl⟩ := List.mem_map.1 hr'
      have hx' : x ≠ 0 := fun h => hs.nonzero _ (List.mem_cons_self ..) (h ▸ hx)
      rw [padRow_get hr'' (hs.range _ (List.mem_cons_self ..) x hx) hx'] at hx0
      omega
  rcases momentOf_atoms hch name hS hw h0 hr with h | h <;> rw [e] at h <;> exact key h

end Verif.Generate
