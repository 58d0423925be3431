import Mathlib.Algebra.BigOperators.Ring.Finset
import Mathlib.Tactic.Ring
import Mathlib.Tactic.Linarith
import Verif.Common.SortLemmas
import Verif.LpSolver.Spec
/-! Rows of stacked matrices. -/
namespace Verif.LpSolver
open Verif.Common

variable {K : Type} [Field K] [LinearOrder K]

theorem rowAt_nil (x : Nat → K) (i : Nat) : rowAt [] x i = 0 := rfl

theorem rowAt_cons (e : Nat × Nat × K) (l : List (Nat × Nat × K)) (x : Nat → K) (i : Nat) :
    rowAt (e :: l) x i = (if e.1 = i then e.2.2 * x e.2.1 else 0) + rowAt l x i := by
  unfold rowAt
  by_cases h : e.1 = i <;> simp [List.filter_cons, h]

theorem rowAt_append (l m : List (Nat × Nat × K)) (x : Nat → K) (i : Nat) : rowAt (l ++ m) x i = rowAt l x i + rowAt m x i := by
  unfold rowAt; simp

theorem rowAt_shift (l : List (Nat × Nat × K)) (off : Nat) (x : Nat → K) (i : Nat) :
    rowAt (l.map fun e => (e.1 + off, e.2.1, e.2.2)) x i = if off ≤ i then rowAt l x (i - off) else 0 := by
  induction l with
  | nil => simp [rowAt_nil]
  | cons e l ih =>
    rw [List.map_cons, rowAt_cons, rowAt_cons, ih]
    by_cases h : off ≤ i
    · have : (e.1 + off = i) ↔ e.1 = i - off := by omega
      simp [h, this]
    · have : e.1 + off ≠ i := by omega
      simp [h, this]

theorem rowAt_zero {l : List (Nat × Nat × K)} {x : Nat → K} {i : Nat} (h : ∀ e ∈ l, e.1 ≠ i) : rowAt l x i = 0 := by
  unfold rowAt
  rw [List.filter_eq_nil_iff.2 (by simpa using h)]
  rfl

theorem rowAt_perm {l m : List (Nat × Nat × K)} (h : l.Perm m) (x : Nat → K) (i : Nat) : rowAt l x i = rowAt m x i := by
  unfold rowAt
  exact ((h.filter _).map _).sum_eq

/-- The entries of stacked blocks. -/
def stackEnts : Nat → List (Coo K) → List (Nat × Nat × K)
  | _, [] => []
  | off, b :: bs => b.ents.map (fun e => (e.1 + off, e.2.1, e.2.2)) ++ stackEnts (off + b.rows) bs

theorem foldl_stack (bs : List (Coo K)) : ∀ acc : Coo K,
    (bs.foldl (fun acc b => (⟨acc.rows + b.rows, max acc.cols b.cols, acc.ents ++ b.ents.map fun e => (e.1 + acc.rows, e.2.1, e.2.2)⟩ : Coo K)) acc) =
      ⟨acc.rows + (bs.map (·.rows)).sum, (bs.map (·.cols)).foldl max acc.cols, acc.ents ++ stackEnts acc.rows bs⟩ := by
  induction bs with
  | nil => intro acc; simp [stackEnts]
  | cons b bs ih => intro acc; simp only [List.foldl_cons]; rw [ih]; simp [stackEnts, Nat.add_assoc]

theorem stackEnts_empty {bs : List (Coo K)} (h : ∀ b ∈ bs, b.rows = 0 ∧ b.ents = []) (off : Nat) : stackEnts off bs = [] := by
  induction bs generalizing off with
  | nil => rfl
  | cons b bs ih =>
    simp only [stackEnts]
    rw [(h b (by simp)).2, ih fun c hc => h c (List.mem_cons_of_mem _ hc)]
    rfl

theorem map_add_zero (l : List (Nat × Nat × K)) : (l.map fun e => (e.1 + 0, e.2.1, e.2.2)) = l := by
  simp

theorem stackEnts_single {bs : List (Coo K)} {b : Coo K} (hf : bs.filter (fun b => b.rows != 0) = [b])
    (h : ∀ b ∈ bs, b.rows = 0 → b.ents = []) : stackEnts 0 bs = b.ents ∧ (bs.map (·.rows)).sum = b.rows := by
  induction bs with
  | nil => simp at hf
  | cons c bs ih =>
    by_cases hc : c.rows = 0
    · have hf' : bs.filter (fun b => b.rows != 0) = [b] := by simpa [List.filter_cons, hc] using hf
      have := ih hf' fun d hd => h d (List.mem_cons_of_mem _ hd)
      simp [stackEnts, h c (by simp) hc, hc, this]
    · have hf' : c = b ∧ bs.filter (fun b => b.rows != 0) = [] := by simpa [List.filter_cons, hc] using hf
      obtain ⟨rfl, hf'⟩ := hf'
      have h0 : ∀ d ∈ bs, d.rows = 0 ∧ d.ents = [] := by
        intro d hd
        have := List.filter_eq_nil_iff.1 hf' d hd
        have hd0 : d.rows = 0 := by simpa using this
        exact ⟨hd0, h d (List.mem_cons_of_mem _ hd) hd0⟩
      simp only [stackEnts, stackEnts_empty h0, List.append_nil, Nat.add_zero, List.map_cons, List.sum_cons]
      refine ⟨by simp, ?_⟩
      have : (bs.map (·.rows)).sum = 0 := by
        rw [List.sum_eq_zero]
        intro r hr
        obtain ⟨d, hd, rfl⟩ := List.mem_map.1 hr
        exact (h0 d hd).1
      omega

theorem foldl_max_le {l : List Nat} {a n : Nat} (ha : a ≤ n) (h : ∀ c ∈ l, c ≤ n) : l.foldl max a ≤ n := by
  induction l generalizing a with
  | nil => simpa
  | cons c l ih => exact ih (max_le ha (h c (by simp))) fun d hd => h d (List.mem_cons_of_mem _ hd)

theorem le_foldl_max {l : List Nat} {a n : Nat} (h : n ≤ a ∨ n ∈ l) : n ≤ l.foldl max a := by
  induction l generalizing a with
  | nil => simpa using h
  | cons c l ih =>
    apply ih
    rcases h with h | h
    · left; omega
    · rcases List.mem_cons.1 h with rfl | h
      · left; omega
      · right; exact h

/-- Stacking succeeds when some block has rows. -/
theorem vstack_some {bs : List (Coo K)} {n : Nat} (h0 : ∀ b ∈ bs, b.rows = 0 → b.ents = []) (hle : ∀ b ∈ bs, b.cols ≤ n)
    (hn : ∀ b ∈ bs, b.rows ≠ 0 → b.cols = n ∨ ∃ c ∈ bs, c.rows ≠ 0 ∧ c.cols = n ∧ c ≠ b) (hne : ∃ b ∈ bs, b.rows ≠ 0) :
    vstack bs = some ⟨(bs.map (·.rows)).sum, n, stackEnts 0 bs⟩ := by
  unfold vstack
  split
  · rename_i hf
    obtain ⟨b, hb, hr⟩ := hne
    have := List.filter_eq_nil_iff.1 hf b hb
    simp [hr] at this
  · rename_i b hf
    obtain ⟨h1, h2⟩ := stackEnts_single hf h0
    have hb : b ∈ bs ∧ b.rows ≠ 0 := by
      have : b ∈ bs.filter (fun b => b.rows != 0) := by rw [hf]; simp
      simpa using List.mem_filter.1 this
    have hcols : b.cols = n := by
      rcases hn b hb.1 hb.2 with h | ⟨c, hc, hcr, _, hcb⟩
      · exact h
      · have : c ∈ bs.filter (fun b => b.rows != 0) := List.mem_filter.2 ⟨hc, by simpa using hcr⟩
        rw [hf] at this
        exact absurd (List.mem_singleton.1 this) hcb
    rw [h1, h2, ← hcols]
  · rw [foldl_stack]
    simp only [Nat.zero_add, List.nil_append, Option.some.injEq, Coo.mk.injEq, true_and, and_true]
    apply le_antisymm
    · exact foldl_max_le (Nat.zero_le _) fun c hc => by
        obtain ⟨b, hb, rfl⟩ := List.mem_map.1 hc
        exact hle b hb
    · apply le_foldl_max
      right
      obtain ⟨b, hb, hr⟩ := hne
      rcases hn b hb hr with h | ⟨c, hc, _, hcn, _⟩
      · exact List.mem_map.2 ⟨b, hb, h⟩
      · exact List.mem_map.2 ⟨c, hc, hcn⟩

theorem vstack_none {bs : List (Coo K)} (h : ∀ b ∈ bs, b.rows = 0) : vstack bs = none := by
  unfold vstack
  rw [List.filter_eq_nil_iff.2 (by simpa using h)]

/-- Dropping zero rows succeeds only when there are none, and then does nothing. -/
theorem dropZeroRows_eq {n : Nat} {A B : Coo K} (hn : 0 < n) (hA : MatrixOk n A) (h : dropZeroRows A = some B) : B = A := by
  unfold dropZeroRows at h
  simp only at h
  split at h
  · rename_i hs
    simp only [Option.some.injEq] at h
    have hlen : (npUnique (A.ents.map fun e => e.1)).length = A.rows := by
      rcases hA.cols with h0 | hc
      · have : A.ents = [] := by
          rcases hE : A.ents with _ | ⟨e, l⟩
          · rfl
          · have := hA.inRange e (by simp [hE]); omega
        simp [this, h0, npUnique, dedupB, sortBy]
      · rw [hc] at hs
        exact Nat.eq_of_mul_eq_mul_right hn hs
    have hrange : npUnique (A.ents.map fun e => e.1) = List.range A.rows := by
      have hsub : ∀ r ∈ npUnique (A.ents.map fun e => e.1), r ∈ List.range A.rows := by
        intro r hr
        obtain ⟨e, he, rfl⟩ := List.mem_map.1 (mem_npUnique.1 hr)
        exact List.mem_range.2 (hA.inRange e he).1
      have hp : (npUnique (A.ents.map fun e => e.1)).Perm (List.range A.rows) := by
        apply List.Subperm.perm_of_length_le
        · exact (List.subperm_of_subset (npUnique_nodup _) hsub)
        · simp [hlen]
      exact hp.eq_of_pairwise (le := (· < ·)) (fun a b _ _ h1 h2 => by omega) (npUnique_sorted _) List.pairwise_lt_range
    rw [hrange] at h
    rw [← h]
    have hm : (A.ents.map fun e => ((List.range A.rows).idxOf e.1, e.2.1, e.2.2)) = A.ents := by
      conv_rhs => rw [← List.map_id A.ents]
      apply List.map_congr_left
      intro e he
      have hlt := (hA.inRange e he).1
      have := List.nodup_range (n := A.rows) |>.idxOf_getElem e.1 (by simpa using hlt)
      simp only [List.getElem_range] at this
      simp [this]
    rw [hm]
    simp
  · simp at h

/-- Dropping zero rows succeeds when every row has an entry. -/
theorem dropZeroRows_some {n : Nat} {A : Coo K} (hA : MatrixOk n A) (h : ∀ i, i < A.rows → ∃ e ∈ A.ents, e.1 = i) :
    ∃ B, dropZeroRows A = some B := by
  unfold dropZeroRows
  simp only
  have hp : (npUnique (A.ents.map fun e => e.1)).Perm (List.range A.rows) := by
    rw [List.perm_ext_iff_of_nodup (npUnique_nodup _) List.nodup_range]
    intro r
    rw [mem_npUnique, List.mem_range]
    constructor
    · intro hr
      obtain ⟨e, he, rfl⟩ := List.mem_map.1 hr
      exact (hA.inRange e he).1
    · intro hr
      obtain ⟨e, he, rfl⟩ := h r hr
      exact List.mem_map.2 ⟨e, he, rfl⟩
  rw [if_pos (by rw [hp.length_eq, List.length_range])]
  exact ⟨_, rfl⟩

theorem dropZeroRows_none {n : Nat} {A : Coo K} (hn : 0 < n) (hA : MatrixOk n A) {i : Nat} (hi : i < A.rows) (h : ∀ e ∈ A.ents, e.1 ≠ i) :
    dropZeroRows A = none := by
  rcases hd : dropZeroRows A with _ | B
  · rfl
  · exfalso
    unfold dropZeroRows at hd
    simp only at hd
    split at hd
    · rename_i hs
      have hc : A.cols = n := by rcases hA.cols with h | h <;> omega
      rw [hc] at hs
      have hlen := Nat.eq_of_mul_eq_mul_right hn hs
      have hp : (npUnique (A.ents.map fun e => e.1)).Perm (List.range A.rows) := by
        apply List.Subperm.perm_of_length_le
        · refine List.subperm_of_subset (npUnique_nodup _) ?_
          intro r hr
          obtain ⟨e, he, rfl⟩ := List.mem_map.1 (mem_npUnique.1 hr)
          exact List.mem_range.2 (hA.inRange e he).1
        · simp [hlen]
      have := hp.mem_iff.2 (List.mem_range.2 hi)
      obtain ⟨e, he, hei⟩ := List.mem_map.1 (mem_npUnique.1 this)
      exact h e he hei
    · simp at hd

end Verif.LpSolver
