import Verif.EndToEnd.Expect
import Mathlib.Data.List.Dedup
/-!
Independent random answers to questions: the probability that each answer of a list is given.
-/
namespace Verif.SdpEnd
open Verif.EndToEnd

variable {A Q F : Type} [Fintype A] [DecidableEq A] [Fintype Q] [DecidableEq Q] [Field F]

/-- The answer that `g` gives to the question `q`, replaced by `d q` if it is an answer to another question. -/
def answer (key : A → Q) (d : Q → A) (g : Q → A) (q : Q) : A := if key (g q) = q then g q else d q

/-- 1 if `r` is given as the answer to its question. -/
def given (key : A → Q) (d : Q → A) (r : A) (g : Q → A) : F := if answer key d g (key r) = r then 1 else 0

/-- The distribution of the answers. -/
def answerWeight (key : A → Q) (resp : A → F) (q : Q) (r : A) : F := if key r = q then resp r else 0

/-- No two different answers to the same question. -/
def Consistent (key : A → Q) (e : List A) : Prop := ∀ a ∈ e, ∀ b ∈ e, key a = key b → a = b

instance (key : A → Q) (e : List A) : Decidable (Consistent key e) := inferInstanceAs (Decidable (∀ a ∈ e, ∀ b ∈ e, key a = key b → a = b))

theorem consistent_cons {key : A → Q} {r : A} {e : List A} : Consistent key (r :: e) ↔ (∀ a ∈ e, key a = key r → a = r) ∧ Consistent key e := by
  constructor
  · intro h
    exact ⟨fun a ha hk => h a (List.mem_cons_of_mem _ ha) r (by simp) hk, fun a ha b hb => h a (List.mem_cons_of_mem _ ha) b (List.mem_cons_of_mem _ hb)⟩
  · rintro ⟨h1, h2⟩ a ha b hb hk
    rcases List.mem_cons.1 ha with rfl | ha'
    · rcases List.mem_cons.1 hb with rfl | hb'
      · rfl
      · exact (h1 b hb' hk.symm).symm
    · rcases List.mem_cons.1 hb with rfl | hb'
      · exact h1 a ha' hk
      · exact h2 a ha' b hb' hk

variable {key : A → Q} {d : Q → A} {resp : A → F}

theorem answer_key (hd : ∀ q, key (d q) = q) (g : Q → A) (q : Q) : key (answer key d g q) = q := by
  unfold answer
  split
  · assumption
  · exact hd q

theorem given_sq (r : A) (g : Q → A) : given key d r g * given key d r g = (given key d r g : F) := by
  unfold given
  split <;> simp

theorem given_ortho {r s : A} (hne : r ≠ s) (hk : key r = key s) (g : Q → A) : given key d r g * given key d s g = (0 : F) := by
  unfold given
  rw [hk]
  by_cases h1 : answer key d g (key s) = r
  · by_cases h2 : answer key d g (key s) = s
    · exact absurd (h1.symm.trans h2) hne
    · rw [if_neg h2, mul_zero]
  · rw [if_neg h1, zero_mul]

/-- Exactly one answer is given to each question. -/
theorem given_sum (hd : ∀ q, key (d q) = q) (q : Q) (l : List A) (hl : l.Nodup) (hm : ∀ r, r ∈ l ↔ key r = q) (g : Q → A) : (l.map fun r => (given key d r g : F)).sum = 1 := by
  have h1 : (l.map fun r => (given key d r g : F)) = l.map fun r => if r = answer key d g q then 1 else 0 := by
    apply List.map_congr_left
    intro r hr
    unfold given
    rw [(hm r).1 hr]
    by_cases h : answer key d g q = r
    · rw [if_pos h, if_pos h.symm]
    · rw [if_neg h, if_neg (fun e => h e.symm)]
  rw [h1]
  have hin : answer key d g q ∈ l := (hm _).2 (answer_key hd g q)
  generalize answer key d g q = x at hin
  clear h1 hm
  induction l with
  | nil => simp at hin
  | cons a l ih =>
    rw [List.nodup_cons] at hl
    rw [List.map_cons, List.sum_cons]
    by_cases hax : a = x
    · rw [if_pos hax]
      have : (l.map fun r => if r = x then (1 : F) else 0).sum = 0 := by
        apply List.sum_eq_zero
        intro y hy
        obtain ⟨r, hr, rfl⟩ := List.mem_map.1 hy
        rw [if_neg]
        rintro rfl
        exact hl.1 (hax ▸ hr)
      rw [this, add_zero]
    · rw [if_neg hax, zero_add]
      rcases List.mem_cons.1 hin with h | h
      · exact absurd h.symm hax
      · exact ih hl.2 h

theorem answerWeight_sum (hresp : ∀ q, ∑ r, (if key r = q then resp r else 0) = 1) (q : Q) : ∑ r, answerWeight key resp q r = 1 := hresp q

/-- The probability of a single answer. -/
theorem expect_given (hresp : ∀ q, ∑ r, (if key r = q then resp r else 0) = 1) (r : A) : expect (answerWeight key resp) (given key d r) = resp r := by
  have h := expect_restrict (fun _ : Unit => key r) (fun a b _ => rfl) (answerWeight key resp) (answerWeight_sum hresp)
    (fun g : Unit → A => if (if key (g ()) = key r then g () else d (key r)) = r then (1 : F) else 0)
  rw [show (fun ν : Q → A => (fun g : Unit → A => if (if key (g ()) = key r then g () else d (key r)) = r then (1 : F) else 0) (ν ∘ fun _ : Unit => key r)) = given key d r from rfl] at h
  rw [h]
  unfold expect
  rw [Fintype.sum_equiv (Equiv.funUnique Unit A) _ (fun x : A => answerWeight key resp (key r) x * if (if key x = key r then x else d (key r)) = r then (1 : F) else 0)
    (by intro ν; simp [Equiv.funUnique])]
  rw [Finset.sum_eq_single r]
  · simp [answerWeight]
  · intro b _ hb
    unfold answerWeight
    by_cases hk : key b = key r
    · rw [if_pos hk, if_pos hk, if_neg hb, mul_zero]
    · rw [if_neg hk, zero_mul]
  · simp

/-- The probability that all answers of a list are given. -/
theorem expect_answers (hresp : ∀ q, ∑ r, (if key r = q then resp r else 0) = 1) (e : List A) :
    expect (answerWeight key resp) (fun g => (e.map fun r => given key d r g).prod) = if Consistent key e then (e.dedup.map resp).prod else 0 := by
  induction e with
  | nil =>
    rw [if_pos (by intro a ha; simp at ha)]
    simp only [List.map_nil, List.prod_nil, List.dedup_nil]
    exact expect_one _ (answerWeight_sum hresp)
  | cons r e ih =>
    simp only [List.map_cons, List.prod_cons]
    by_cases hr : r ∈ e
    · -- repeated answer
      have h1 : (fun g => given key d r g * (e.map fun r => given key d r g).prod) = fun g => ((e.map fun r => given key d r g).prod : F) := by
        funext g
        obtain ⟨s, t, rfl⟩ := List.append_of_mem hr
        simp only [List.map_append, List.map_cons, List.prod_append, List.prod_cons]
        calc given key d r g * ((s.map fun r => given key d r g).prod * (given key d r g * (t.map fun r => given key d r g).prod))
            = (given key d r g * given key d r g) * ((s.map fun r => given key d r g).prod * (t.map fun r => given key d r g).prod) := by ring
          _ = _ := by rw [given_sq]; ring
      rw [h1, ih, List.dedup_cons_of_mem hr]
      have : Consistent key (r :: e) ↔ Consistent key e := by
        rw [consistent_cons]
        exact ⟨fun h => h.2, fun h => ⟨fun a ha hk => h a ha r hr hk, h⟩⟩
      by_cases hc : Consistent key e
      · rw [if_pos hc, if_pos (this.2 hc)]
      · rw [if_neg hc, if_neg (fun h => hc (this.1 h))]
    · by_cases hk : ∃ a ∈ e, key a = key r
      · -- two answers to one question
        obtain ⟨a, ha, hak⟩ := hk
        have hne : r ≠ a := fun h => hr (h ▸ ha)
        have h1 : (fun g => given key d r g * (e.map fun r => given key d r g).prod) = fun _ => (0 : F) := by
          funext g
          obtain ⟨s, t, rfl⟩ := List.append_of_mem ha
          simp only [List.map_append, List.map_cons, List.prod_append, List.prod_cons]
          calc given key d r g * ((s.map fun r => given key d r g).prod * (given key d a g * (t.map fun r => given key d r g).prod))
              = (given key d r g * given key d a g) * ((s.map fun r => given key d r g).prod * (t.map fun r => given key d r g).prod) := by ring
            _ = _ := by rw [given_ortho hne hak.symm, zero_mul]
        rw [h1, if_neg]
        · unfold expect; simp
        · intro hc
          exact hne ((consistent_cons.1 hc).1 a ha hak).symm
      · -- a new question
        push Not at hk
        rw [expect_indep (fun q => q = key r) (answerWeight key resp) (answerWeight_sum hresp) (given key d r) (fun g => (e.map fun r => given key d r g).prod), expect_given hresp, ih,
          List.dedup_cons_of_notMem hr]
        · have : Consistent key (r :: e) ↔ Consistent key e := by
            rw [consistent_cons]
            exact ⟨fun h => h.2, fun h => ⟨fun a ha hk' => absurd hk' (hk a ha), h⟩⟩
          by_cases hc : Consistent key e
          · rw [if_pos hc, if_pos (this.2 hc), List.map_cons, List.prod_cons]
          · rw [if_neg hc, if_neg (fun h => hc (this.1 h)), mul_zero]
        · intro g g' hg
          unfold given answer
          rw [hg _ rfl]
        · intro g g' hg
          congr 1
          apply List.map_congr_left
          intro a ha
          unfold given answer
          rw [hg _ (hk a ha)]

end Verif.SdpEnd
