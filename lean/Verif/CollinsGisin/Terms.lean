import Verif.CollinsGisin.InclExcl
/-! The terms computed by the model are the signed combinations. -/
namespace Verif.CollinsGisin
open Verif.Orbits

variable {n : Nat} {blocks : List (List Nat)} {adj : Nat → Nat → Bool}

theorem asBoolArray_getLastD {b : List Nat} (hb : b ≠ []) (d : List Bool) :
    (asBoolArray n b).getLastD d = boolKey n [b.getLastD 0] := by
  unfold asBoolArray
  rw [List.getLastD_eq_getLast?, List.getLast?_map, List.getLastD_eq_getLast?, List.getLast?_eq_some_getLast hb]
  rfl

theorem lastRows_eq {bs : List (List Nat)} (hb : ∀ b ∈ bs, b ≠ []) :
    lastRows n (bs.map (asBoolArray n)) = boolKey n (lasts bs) := by
  have : ∀ (acc : List Nat) (bs : List (List Nat)), (∀ b ∈ bs, b ≠ []) →
      (bs.map (asBoolArray n)).foldl (fun acc g => bvOr acc (g.getLastD (List.replicate n false))) (boolKey n acc) =
        boolKey n (acc ++ lasts bs) := by
    intro acc bs
    induction bs generalizing acc with
    | nil => intro _; simp [lasts]
    | cons b bs ih =>
      intro hb
      simp only [List.map_cons, List.foldl_cons]
      rw [asBoolArray_getLastD (hb b (by simp)), bvOr_boolKey, ih _ fun c hc => hb c (List.mem_cons_of_mem _ hc)]
      simp [lasts]
  have h := this [] bs hb
  unfold lastRows
  rw [replicate_eq] at *
  simpa using h

/-- Rows of the alternatives of a measurement. -/
def altRows (n : Nat) (b : List Nat) : List (List Bool) := (alt b).map fun x => boolKey n x.2

theorem altRows_eq (b : List Nat) : altRows n b = List.replicate n false :: (asBoolArray n b).dropLast := by
  unfold altRows alt asBoolArray
  rw [replicate_eq, List.map_cons, List.map_map, List.map_dropLast]
  rfl

theorem sublist_flatten {α : Type} {l m : List (List α)} (h : l.Sublist m) : l.flatten.Sublist m.flatten := by
  induction h with
  | slnil => exact .slnil
  | cons a _ ih => exact ih.trans (by simp)
  | cons_cons a _ ih => exact (List.Sublist.refl a).append ih

/-- The last outcomes of some of the measurements, in order, are increasing. -/
theorem lasts_sorted (h : BlocksOk n blocks) {bs : List (List Nat)} (hsub : bs.Sublist blocks) : (lasts bs).Pairwise (· < ·) := by
  have hflat : bs.flatten.Pairwise (· < ·) := by
    have h1 : blocks.flatten.Pairwise (· < ·) := by rw [h.flat]; exact List.pairwise_lt_range
    exact List.Pairwise.sublist (sublist_flatten hsub) h1
  have hne : ∀ b ∈ bs, b ≠ [] := fun b hb => h.nonempty b (hsub.subset hb)
  clear hsub
  induction bs with
  | nil => simp [lasts]
  | cons b bs ih =>
    simp only [List.flatten_cons, List.pairwise_append] at hflat
    simp only [lasts, List.map_cons, List.pairwise_cons]
    refine ⟨?_, ih hflat.2.1 fun c hc => hne c (List.mem_cons_of_mem _ hc)⟩
    intro x hx
    obtain ⟨c, hc, rfl⟩ := List.mem_map.1 hx
    have mem : ∀ d : List Nat, d ≠ [] → d.getLastD 0 ∈ d := by
      intro d hd
      rw [List.getLastD_eq_getLast?, List.getLast?_eq_some_getLast hd]
      exact List.getLast_mem hd
    exact hflat.2.2 _ (mem b (hne b (by simp))) _
      (List.mem_flatten.2 ⟨c, hc, mem c (hne c (List.mem_cons_of_mem _ hc))⟩)

theorem last_mem {b : List Nat} (hb : b ≠ []) : b.getLastD 0 ∈ b := by
  rw [List.getLastD_eq_getLast?, List.getLast?_eq_some_getLast hb]
  exact List.getLast_mem hb

theorem lasts_lt (h : BlocksOk n blocks) {bs : List (List Nat)} (hb : ∀ b ∈ bs, b ∈ blocks) : ∀ x ∈ lasts bs, x < n := by
  intro x hx
  obtain ⟨c, hc, rfl⟩ := List.mem_map.1 hx
  exact h.lt (hb c hc) (last_mem (h.nonempty c (hb c hc)))

theorem alternatives_eq (h : BlocksOk n blocks) {bs : List (List Nat)} (hsub : bs.Sublist blocks) :
    alternatives n (bs.map (asBoolArray n)) = bs.map fun b => (b.getLastD 0, altRows n b) := by
  unfold alternatives
  rw [lastRows_eq fun b hb => h.nonempty b (hsub.subset hb),
    flatnonzero_boolKey_sorted (lasts_sorted h hsub) (lasts_lt h fun b hb => hsub.subset hb)]
  unfold lasts
  rw [List.map_map, List.zip_map, List.zip_eq_zipWith, List.zipWith_self, List.map_map]
  apply List.map_congr_left
  intro b _
  simp [altRows_eq]

theorem lookup_alternatives (h : BlocksOk n blocks) {bs : List (List Nat)} (hsub : bs.Sublist blocks) {b : List Nat} (hb : b ∈ bs) :
    (alternatives n (bs.map (asBoolArray n))).lookup (b.getLastD 0) = some (altRows n b) := by
  rw [alternatives_eq h hsub]
  have hnd : (lasts bs).Nodup := List.Pairwise.imp (fun h => Nat.ne_of_lt h) (lasts_sorted h hsub)
  clear hsub
  induction bs with
  | nil => simp at hb
  | cons c bs ih =>
    simp only [List.map_cons, List.lookup_cons]
    simp only [lasts, List.map_cons, List.nodup_cons] at hnd
    rcases List.mem_cons.1 hb with rfl | hb
    · simp
    · have hne : b.getLastD 0 ≠ c.getLastD 0 := by
        intro e
        exact hnd.1 (List.mem_map.2 ⟨b, hb, e⟩)
      have : (b.getLastD 0 == c.getLastD 0) = false := by simpa using hne
      rw [this]
      exact ih hb hnd.2

theorem critical_eq {bs : List (List Nat)} (hb : ∀ b ∈ bs, b ≠ []) (e : List Nat) :
    critical n (bs.map (asBoolArray n)) (boolKey n e) = boolKey n (e.filter fun r => (lasts bs).contains r) := by
  unfold critical
  rw [lastRows_eq hb]
  unfold boolKey
  rw [List.zipWith_map, List.zipWith_self]
  apply List.map_congr_left
  intro x _
  rw [Bool.eq_iff_iff]; simp

theorem absentC_eq {bs : List (List Nat)} (hb : ∀ b ∈ bs, b ≠ []) (e : List Nat) :
    absentC n (bs.map (asBoolArray n)) (boolKey n e) = boolKey n (e.filter fun r => !(lasts bs).contains r) := by
  unfold absentC
  rw [critical_eq hb]
  unfold boolKey
  rw [List.zipWith_map, List.zipWith_self]
  apply List.map_congr_left
  intro x _
  rw [Bool.eq_iff_iff]; simp
  tauto

/-! Products -/

theorem zip_outer (A C : List Bool) (B D : List (List Bool)) (h1 : A.length = B.length) (h2 : C.length = D.length) :
    (outerXor A C).zip (outerOr B D) =
      (A.zip B).flatMap fun x => (C.zip D).map fun y => (xor x.1 y.1, bvOr x.2 y.2) := by
  unfold outerXor outerOr
  induction A generalizing B with
  | nil => cases B with
    | nil => rfl
    | cons b B => simp at h1
  | cons a A ih => cases B with
    | nil => simp at h1
    | cons b B =>
      simp only [List.flatMap_cons, List.zip_cons_cons]
      rw [List.zip_append (by simp [h2]), ih B (by simpa using h1)]
      congr 1
      rw [List.zip_map]
      rfl

/-- Rows and signs of a signed combination. -/
def rows (n : Nat) (X : List (Bool × List Nat)) : List (List Bool) := X.map fun x => boolKey n x.2

theorem outerXor_combine (X Y : List (Bool × List Nat)) :
    outerXor (X.map (·.1)) (Y.map (·.1)) = (combine X Y).map (·.1) := by
  unfold outerXor combine
  rw [List.flatMap_map, List.map_flatMap]
  congr 1
  funext x
  simp [List.map_map, Function.comp_def]

theorem outerOr_combine (X Y : List (Bool × List Nat)) :
    outerOr (rows n X) (rows n Y) = rows n (combine X Y) := by
  unfold outerOr combine rows
  rw [List.flatMap_map, List.map_flatMap]
  congr 1
  funext x
  simp [List.map_map, Function.comp_def, bvOr_boolKey]

theorem combine_unit (Y : List (Bool × List Nat)) : combine [(false, [])] Y = Y := by
  simp [combine]

theorem reduce_eq_foldl {α : Type} (f : α → α → α) (u d : α) (hu : ∀ a, f u a = a) {l : List α} (hl : l ≠ []) :
    reduce1 f d l = l.foldl f u := by
  cases l with
  | nil => exact absurd rfl hl
  | cons a l => simp [reduce1, hu]

theorem reduce_signs {bs : List (List Nat)} (hbs : bs ≠ []) :
    reduce1 outerXor [] (bs.map fun b => (alt b).map (·.1)) = (combos bs).map (·.1) := by
  rw [reduce_eq_foldl outerXor [false] [] (fun a => by simp [outerXor]) (by simpa using hbs)]
  have : ∀ (X : List (Bool × List Nat)) (bs : List (List Nat)),
      (bs.map fun b => (alt b).map (·.1)).foldl outerXor (X.map (·.1)) = (bs.foldl (fun X b => combine X (alt b)) X).map (·.1) := by
    intro X bs
    induction bs generalizing X with
    | nil => rfl
    | cons b bs ih => simp only [List.map_cons, List.foldl_cons]; rw [outerXor_combine, ih]
  exact this [(false, [])] bs

theorem reduce_rows {bs : List (List Nat)} (hbs : bs ≠ []) :
    reduce1 outerOr [] (bs.map (altRows n)) = rows n (combos bs) := by
  cases bs with
  | nil => exact absurd rfl hbs
  | cons b bs =>
    have : ∀ (X : List (Bool × List Nat)) (bs : List (List Nat)),
        (bs.map (altRows n)).foldl outerOr (rows n X) = rows n (bs.foldl (fun X b => combine X (alt b)) X) := by
      intro X bs
      induction bs generalizing X with
      | nil => rfl
      | cons b bs ih =>
        simp only [List.map_cons, List.foldl_cons]
        rw [show altRows n b = rows n (alt b) from rfl, outerOr_combine, ih]
    simp only [List.map_cons, reduce1]
    rw [show altRows n b = rows n (alt b) from rfl, this]
    simp [combos, combine_unit]

theorem altRows_signs (h : BlocksOk n blocks) {b : List Nat} (hb : b ∈ blocks) :
    (altRows n b).map (fun r => r.any id) = (alt b).map (·.1) := by
  unfold altRows alt
  simp only [List.map_cons, List.map_map]
  rw [boolKey_any (by simp)]
  congr 1
  apply List.map_congr_left
  intro r hr
  simp only [Function.comp]
  rw [boolKey_any]
  · rfl
  · intro x hx
    simp only [List.mem_singleton] at hx
    subst hx
    exact h.lt hb ((List.dropLast_sublist _).subset hr)

/-- The terms of a vector all of whose critical outcomes are the last ones of `cb` (in increasing order). -/
theorem terms_eq (h : BlocksOk n blocks) {bs : List (List Nat)} (hsub : bs.Sublist blocks) {e : List Nat} {cb : List (List Nat)}
    (hcb : ∀ b ∈ cb, b ∈ bs) (hne : cb ≠ [])
    (hcrit : flatnonzero (critical n (bs.map (asBoolArray n)) (boolKey n e)) = lasts cb) :
    terms n (bs.map (asBoolArray n)) (boolKey n e) =
      some ((combos cb).map fun x => (x.1, boolKey n ((e.filter fun r => !(lasts bs).contains r) ++ x.2))) := by
  unfold terms
  rw [hcrit]
  have e1 : ((lasts cb).mapM fun i => (alternatives n (bs.map (asBoolArray n))).lookup i) = some (cb.map (altRows n)) := by
    clear hcrit hne
    unfold lasts
    induction cb with
    | nil => rfl
    | cons b cb ih =>
      simp only [List.map_cons, List.mapM_cons]
      rw [lookup_alternatives h hsub (hcb b (by simp)), ih fun c hc => hcb c (List.mem_cons_of_mem _ hc)]
      rfl
  rw [e1]
  simp only [Option.map_some, Option.some.injEq]
  have e2 : (cb.map (altRows n)).map (fun A => A.map fun r => r.any id) = cb.map fun b => (alt b).map (·.1) := by
    rw [List.map_map]
    apply List.map_congr_left
    intro b hb
    exact altRows_signs h (hsub.subset (hcb b hb))
  rw [e2, reduce_signs hne, reduce_rows hne, absentC_eq fun b hb => h.nonempty b (hsub.subset hb)]
  unfold rows
  rw [List.map_map, List.zip_map, List.zip_eq_zipWith, List.zipWith_self, List.map_map]
  apply List.map_congr_left
  intro x _
  simp [bvOr_boolKey]

end Verif.CollinsGisin
