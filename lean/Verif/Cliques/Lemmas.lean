import Mathlib.Data.List.Sort
import Mathlib.Data.List.Induction
import Mathlib.Tactic.Ring
import Verif.Cliques.Model
import Verif.Cliques.Spec
namespace Verif.Cliques

/-! ### orders -/

theorem LexLT.irrefl (s : List Nat) : ¬ LexLT s s := by
  induction s with
  | nil => simp [LexLT]
  | cons a s ih => simp [LexLT, ih]

theorem LexLT.trans {s t u : List Nat} (h1 : LexLT s t) (h2 : LexLT t u) : LexLT s u := by
  induction s generalizing t u with
  | nil =>
    cases u with
    | nil => cases t <;> simp [LexLT] at h2
    | cons _ _ => simp [LexLT]
  | cons a s ih =>
    cases t with
    | nil => simp [LexLT] at h1
    | cons b t =>
      cases u with
      | nil => simp [LexLT] at h2
      | cons c u =>
        simp only [LexLT] at *
        rcases h1 with h1 | ⟨rfl, h1⟩ <;> rcases h2 with h2 | ⟨rfl, h2⟩
        · left; omega
        · left; omega
        · left; omega
        · right; exact ⟨rfl, ih h1 h2⟩

theorem LexLT.total {s t : List Nat} (h : s.length = t.length) : LexLT s t ∨ s = t ∨ LexLT t s := by
  induction s generalizing t with
  | nil => cases t with
    | nil => simp
    | cons _ _ => simp at h
  | cons a s ih =>
    cases t with
    | nil => simp at h
    | cons b t =>
      simp only [LexLT, List.cons.injEq]
      rcases Nat.lt_trichotomy a b with h' | rfl | h'
      · simp [h']
      · have := ih (t := t) (by simpa using h)
        simp only [Nat.lt_irrefl, false_or, true_and]
        exact this
      · simp [h']

theorem LexLT.append {s t : List Nat} (hl : s.length = t.length) (h : LexLT s t) (x y : List Nat) :
    LexLT (s ++ x) (t ++ y) := by
  induction s generalizing t with
  | nil => cases t with
    | nil => simp [LexLT] at h
    | cons _ _ => simp at hl
  | cons a s ih =>
    cases t with
    | nil => simp [LexLT] at h
    | cons b t =>
      simp only [LexLT, List.cons_append] at *
      rcases h with h | ⟨rfl, h⟩
      · left; exact h
      · right; exact ⟨rfl, ih (by simpa using hl) h⟩

theorem LexLT.prefix_append (b : List Nat) {x y : Nat} (h : x < y) : LexLT (b ++ [x]) (b ++ [y]) := by
  induction b with
  | nil => simp [LexLT, h]
  | cons a b ih => simp [LexLT, ih]

theorem ShortLT.irrefl (s : List Nat) : ¬ ShortLT s s := by
  simp [ShortLT, LexLT.irrefl]

theorem ShortLT.trans {s t u : List Nat} (h1 : ShortLT s t) (h2 : ShortLT t u) : ShortLT s u := by
  unfold ShortLT at *
  rcases h1 with h1 | ⟨e1, h1⟩ <;> rcases h2 with h2 | ⟨e2, h2⟩
  · left; omega
  · left; omega
  · left; omega
  · right; exact ⟨by omega, h1.trans h2⟩

theorem ShortLT.total (s t : List Nat) : ShortLT s t ∨ s = t ∨ ShortLT t s := by
  unfold ShortLT
  rcases Nat.lt_trichotomy s.length t.length with h | h | h
  · simp [h]
  · rcases LexLT.total h with h' | rfl | h'
    · left; right; exact ⟨h, h'⟩
    · simp
    · right; right; right; exact ⟨h.symm, h'⟩
  · simp [h]

theorem ShortLT.snoc {s t : List Nat} (h : ShortLT s t) (x y : Nat) : ShortLT (s ++ [x]) (t ++ [y]) := by
  unfold ShortLT at *
  simp only [List.length_append, List.length_singleton]
  rcases h with h | ⟨e, h⟩
  · left; omega
  · right; exact ⟨by omega, h.append e _ _⟩

/-! ### candidates -/

variable (n : Nat) (adj : Nat → Nat → Bool)

/-- Vertices that extend `b` to the right. -/
def cand (b : List Nat) : List Nat :=
  (List.range n).filter fun v => b.all fun u => decide (u < v) && adj u v

theorem sorted_range_filter (p : Nat → Bool) : ((List.range n).filter p).Pairwise (· < ·) :=
  List.pairwise_lt_range.sublist List.filter_sublist

theorem mem_cand {b : List Nat} {v : Nat} : v ∈ cand n adj b ↔ v < n ∧ ∀ u ∈ b, u < v ∧ adj u v = true := by
  simp [cand]

theorem mem_upperNbrs {u v : Nat} : v ∈ upperNbrs n adj u ↔ v < n ∧ u < v ∧ adj u v = true := by
  simp [upperNbrs]

theorem children_eq (b l : List Nat) (hl : l.Pairwise (· < ·)) :
    children n adj b l =
      l.map fun u => (b ++ [u], l.filter fun w => (upperNbrs n adj u).contains w) := by
  suffices h : ∀ (pre l : List Nat), (pre ++ l).Pairwise (· < ·) →
      children n adj b l =
        l.map fun u => (b ++ [u], (pre ++ l).filter fun w => (upperNbrs n adj u).contains w) by
    simpa using h [] l (by simpa using hl)
  intro pre l
  induction l generalizing pre with
  | nil => intro _; rfl
  | cons u rest ih =>
    intro h
    simp only [children, List.map_cons]
    have h2 := ih (pre ++ [u]) (by simpa using h)
    congr 1
    · congr 1
      rw [List.filter_append, List.filter_cons]
      have e1 : (pre.filter fun w => (upperNbrs n adj u).contains w) = [] := by
        rw [List.filter_eq_nil_iff]
        intro w hw
        rw [List.pairwise_append] at h
        have := h.2.2 w hw u (by simp)
        simp only [List.contains_iff_mem, mem_upperNbrs]
        omega
      have e2 : (upperNbrs n adj u).contains u = false := by
        rw [← Bool.not_eq_true, List.contains_iff_mem, mem_upperNbrs]; omega
      rw [e1, e2]; simp
    · rw [h2]; simp

theorem children_cand (b : List Nat) :
    children n adj b (cand n adj b) = (cand n adj b).map fun u => (b ++ [u], cand n adj (b ++ [u])) := by
  rw [children_eq n adj b (cand n adj b) (sorted_range_filter n _)]
  apply List.map_congr_left
  intro u hu
  rw [mem_cand] at hu
  congr 1
  unfold cand
  rw [List.filter_filter]
  apply List.filter_congr
  intro v hv
  rw [List.mem_range] at hv
  rw [Bool.eq_iff_iff]
  simp only [Bool.and_eq_true, List.contains_iff_mem, mem_upperNbrs, List.all_eq_true, List.mem_append,
    List.mem_singleton, decide_eq_true_eq]
  constructor
  · rintro ⟨⟨h1, h2, h3⟩, h4⟩ w (hw | rfl)
    · exact h4 w hw
    · exact ⟨h2, h3⟩
  · intro h
    exact ⟨⟨hv, h u (.inr rfl)⟩, fun w hw => h w (.inl hw)⟩

theorem initialQueue_eq :
    initialQueue n adj = (cand n adj []).map fun u => ([] ++ [u], cand n adj ([] ++ [u])) := by
  have : cand n adj [] = List.range n := by simp [cand]
  rw [this]
  unfold initialQueue
  apply List.map_congr_left
  intro u _
  simp [upperNbrs, cand]

/-! ### cliques -/

variable {n adj}

theorem IsClique.nil : IsClique n adj [] := ⟨by simp, by simp, by simp⟩

theorem isClique_snoc {b : List Nat} {u : Nat} :
    IsClique n adj (b ++ [u]) ↔ IsClique n adj b ∧ u ∈ cand n adj b := by
  rw [mem_cand]
  constructor
  · rintro ⟨h1, h2, h3⟩
    rw [List.pairwise_append] at h1 h3
    refine ⟨⟨h1.1, fun x hx => h2 x (by simp [hx]), h3.1⟩, h2 u (by simp), ?_⟩
    intro w hw
    exact ⟨h1.2.2 w hw u (by simp), h3.2.2 w hw u (by simp)⟩
  · rintro ⟨⟨h1, h2, h3⟩, h4, h5⟩
    refine ⟨?_, ?_, ?_⟩
    · rw [List.pairwise_append]
      exact ⟨h1, by simp, fun a ha b hb => by simp at hb; subst hb; exact (h5 a ha).1⟩
    · intro x hx
      simp only [List.mem_append, List.mem_singleton] at hx
      rcases hx with hx | rfl
      · exact h2 x hx
      · exact h4
    · rw [List.pairwise_append]
      exact ⟨h3, by simp, fun a ha b hb => by simp at hb; subst hb; exact (h5 a ha).2⟩

/-- Size limit. -/
def Allowed (maxN : Int) (c : List Nat) : Prop := maxN ≤ 0 ∨ (c.length : Int) ≤ maxN

/-- Loop invariant: `P` are the cliques listed so far, `q` is the queue. -/
structure Inv (n : Nat) (adj : Nat → Nat → Bool) (maxN : Int) (P : List (List Nat)) (q : List Entry) : Prop where
  sorted : (P ++ q.map Prod.fst).Pairwise ShortLT
  nil : [] ∈ P
  pop : ∀ c ∈ P, IsClique n adj c ∧ Allowed maxN c
  que : ∀ e ∈ q, e.2 = cand n adj e.1 ∧ IsClique n adj e.1 ∧ Allowed maxN e.1 ∧
    ∃ b u, e.1 = b ++ [u] ∧ b ∈ P
  closed : ∀ b u, IsClique n adj (b ++ [u]) → Allowed maxN (b ++ [u]) → b ∈ P →
    b ++ [u] ∈ P ∨ ∃ e ∈ q, e.1 = b ++ [u]

theorem inv_initial (maxN : Int) : Inv n adj maxN [[]] (initialQueue n adj) where
  sorted := by
    rw [initialQueue_eq, List.map_map]
    simp only [List.singleton_append, List.pairwise_cons, List.mem_map]
    refine ⟨?_, ?_⟩
    · rintro _ ⟨u, _, rfl⟩
      left; simp
    · rw [List.pairwise_map]
      refine (sorted_range_filter n _).imp ?_
      intro a b h
      right
      simp [LexLT, h]
  nil := by simp
  pop := by
    intro c hc
    simp only [List.mem_singleton] at hc
    subst hc
    refine ⟨.nil, ?_⟩
    unfold Allowed
    simp only [List.length_nil, Nat.cast_zero]
    omega
  que := by
    rw [initialQueue_eq]
    intro e he
    simp only [List.mem_map] at he
    obtain ⟨u, hu, rfl⟩ := he
    refine ⟨rfl, isClique_snoc.2 ⟨.nil, hu⟩, ?_, [], u, rfl, by simp⟩
    unfold Allowed
    simp only [List.nil_append, List.length_singleton]
    omega
  closed := by
    intro b u h _ hb
    simp only [List.mem_singleton] at hb
    subst hb
    right
    rw [initialQueue_eq]
    exact ⟨_, List.mem_map.2 ⟨u, (isClique_snoc.1 h).2, rfl⟩, rfl⟩

theorem pushed_cand (maxN : Int) (iso : Bool) (b : List Nat) :
    pushed n adj maxN iso (b, cand n adj b) =
      if maxN ≤ 0 ∨ (b.length : Int) < maxN then
        (cand n adj b).map fun u => (b ++ [u], cand n adj (b ++ [u])) else [] := by
  unfold pushed
  simp only [Bool.and_eq_true, List.isEmpty_iff, Bool.or_eq_true, decide_eq_true_eq]
  split
  · rename_i h
    simp [h.2]
  · split
    · rename_i h
      rw [children_cand]
    · rename_i h
      rfl

theorem inv_step {maxN : Int} {iso : Bool} {P : List (List Nat)} {e : Entry} {q : List Entry}
    (h : Inv n adj maxN P (e :: q)) :
    Inv n adj maxN (P ++ [e.1]) (q ++ pushed n adj maxN iso e) := by
  obtain ⟨b, c⟩ := e
  obtain ⟨hc, hclq, hall, _⟩ := h.que (b, c) (by simp)
  simp only at hc hclq hall
  subst hc
  rw [pushed_cand]
  have hsorted := h.sorted
  simp only [List.map_cons] at hsorted
  have hPb : ∀ p ∈ P, ShortLT p b := by
    intro p hp
    rw [List.pairwise_append] at hsorted
    exact hsorted.2.2 p hp b (by simp)
  have hbq : ∀ e ∈ q, ShortLT b e.1 := by
    intro e he
    rw [List.pairwise_append, List.pairwise_cons] at hsorted
    exact hsorted.2.1.1 e.1 (List.mem_map.2 ⟨e, he, rfl⟩)
  by_cases hext : maxN ≤ 0 ∨ (b.length : Int) < maxN
  · rw [if_pos hext]
    refine ⟨?_, by simp [h.nil], ?_, ?_, ?_⟩
    · simp only [List.map_append, List.map_map, List.append_assoc, List.singleton_append]
      rw [← List.cons_append, ← List.append_assoc, List.pairwise_append]
      refine ⟨hsorted, ?_, ?_⟩
      · rw [List.pairwise_map]
        refine (sorted_range_filter n _).imp ?_
        intro x y hxy
        right
        exact ⟨by simp, LexLT.prefix_append b hxy⟩
      · intro x hx y hy
        simp only [List.mem_map, Function.comp_apply] at hy
        obtain ⟨u, hu, rfl⟩ := hy
        have hb : ShortLT b (b ++ [u]) := by left; simp
        simp only [List.mem_append, List.mem_cons, List.mem_map] at hx
        rcases hx with hx | rfl | ⟨e, he, rfl⟩
        · exact (hPb x hx).trans hb
        · exact hb
        · obtain ⟨_, _, _, b', u', e1, hb'⟩ := h.que e (by simp [he])
          rw [e1]
          exact (hPb b' hb').snoc u' u
    · intro c hc
      simp only [List.mem_append, List.mem_singleton] at hc
      rcases hc with hc | rfl
      · exact h.pop c hc
      · exact ⟨hclq, hall⟩
    · intro e he
      simp only [List.mem_append, List.mem_map] at he
      rcases he with he | ⟨u, hu, rfl⟩
      · obtain ⟨h1, h2, h3, b', u', e1, hb'⟩ := h.que e (by simp [he])
        exact ⟨h1, h2, h3, b', u', e1, by simp [hb']⟩
      · refine ⟨rfl, isClique_snoc.2 ⟨hclq, hu⟩, ?_, b, u, rfl, by simp⟩
        unfold Allowed
        simp only [List.length_append, List.length_singleton]
        omega
    · intro b' u hcl hal hb'
      simp only [List.mem_append, List.mem_singleton] at hb' ⊢
      rcases hb' with hb' | rfl
      · rcases h.closed b' u hcl hal hb' with h1 | ⟨e, he, h1⟩
        · exact .inl (.inl h1)
        · simp only [List.mem_cons] at he
          rcases he with rfl | he
          · exact .inl (.inr h1.symm)
          · exact .inr ⟨e, .inl he, h1⟩
      · refine .inr ⟨(b' ++ [u], cand n adj (b' ++ [u])), .inr ?_, rfl⟩
        exact List.mem_map.2 ⟨u, (isClique_snoc.1 hcl).2, rfl⟩
  · rw [if_neg hext, List.append_nil]
    refine ⟨?_, by simp [h.nil], ?_, ?_, ?_⟩
    · rw [List.append_assoc]; exact hsorted
    · intro c hc
      simp only [List.mem_append, List.mem_singleton] at hc
      rcases hc with hc | rfl
      · exact h.pop c hc
      · exact ⟨hclq, hall⟩
    · intro e he
      obtain ⟨h1, h2, h3, b', u', e1, hb'⟩ := h.que e (by simp [he])
      exact ⟨h1, h2, h3, b', u', e1, by simp [hb']⟩
    · intro b' u hcl hal hb'
      simp only [List.mem_append, List.mem_singleton] at hb' ⊢
      rcases hb' with hb' | rfl
      · rcases h.closed b' u hcl hal hb' with h1 | ⟨e, he, h1⟩
        · exact .inl (.inl h1)
        · simp only [List.mem_cons] at he
          rcases he with rfl | he
          · exact .inl (.inr h1.symm)
          · exact .inr ⟨e, he, h1⟩
      · exfalso
        unfold Allowed at hal
        simp only [List.length_append, List.length_singleton] at hal
        omega

/-! ### fuel -/

theorem weight_children (b l : List Nat) : enoughFuel (children n adj b l) < 2 ^ l.length := by
  induction l with
  | nil => simp [children, enoughFuel]
  | cons u rest ih =>
    simp only [children, enoughFuel, List.map_cons, List.sum_cons, List.length_cons] at *
    have : 2 ^ (rest.filter fun w => (upperNbrs n adj u).contains w).length ≤ 2 ^ rest.length :=
      Nat.pow_le_pow_right (by omega) (List.length_filter_le _ _)
    rw [Nat.pow_succ]; omega

theorem weight_pushed (maxN : Int) (iso : Bool) (e : Entry) :
    enoughFuel (pushed n adj maxN iso e) < 2 ^ e.2.length := by
  unfold pushed
  have hp : 0 < 2 ^ e.2.length := Nat.pow_pos (by omega)
  split
  · simp [enoughFuel]
  · split
    · exact weight_children _ _
    · simp [enoughFuel]

/-- With enough fuel, what holds of a state with an empty queue holds at the end. -/
theorem bfs_final (maxN : Int) (iso : Bool) (f : Nat) (q : List Entry) (P : List (List Nat))
    (hf : enoughFuel q ≤ f) (h : Inv n adj maxN P q) :
    Inv n adj maxN (P ++ (bfs n adj maxN iso f q).1) [] := by
  induction f generalizing q P with
  | zero =>
    cases q with
    | nil => simpa [bfs] using h
    | cons e q =>
      exfalso
      have hp : 0 < 2 ^ e.2.length := Nat.pow_pos (by omega)
      simp only [enoughFuel, List.map_cons, List.sum_cons] at hf
      omega
  | succ f ih =>
    cases q with
    | nil => simpa [bfs] using h
    | cons e q =>
      simp only [bfs]
      have := ih (q ++ pushed n adj maxN iso e) (P ++ [e.1]) ?_ (inv_step h)
      · simpa using this
      · have hw := weight_pushed (n := n) (adj := adj) maxN iso e
        simp only [enoughFuel, List.map_cons, List.sum_cons, List.map_append, List.sum_append] at *
        omega

theorem Inv.complete {maxN : Int} {P : List (List Nat)} (h : Inv n adj maxN P []) {c : List Nat}
    (hc : IsClique n adj c) (ha : Allowed maxN c) : c ∈ P := by
  induction c using List.reverseRecOn with
  | nil => exact h.nil
  | append_singleton b u ih =>
    have hb := ih (isClique_snoc.1 hc).1 (by
      unfold Allowed at *
      simp only [List.length_append, List.length_singleton] at ha
      omega)
    rcases h.closed b u hc ha hb with h1 | ⟨e, he, _⟩
    · exact h1
    · simp at he

/-! ### maximal cliques -/

/-- Cliques that come before the head of the queue have been listed. -/
theorem Inv.before {maxN : Int} {P : List (List Nat)} {e : Entry} {q : List Entry} (h : Inv n adj maxN P (e :: q))
    {c : List Nat} (hc : IsClique n adj c) (ha : Allowed maxN c) (hlt : ShortLT c e.1) : c ∈ P := by
  induction c using List.reverseRecOn with
  | nil => exact h.nil
  | append_singleton b u ih =>
    have hb := ih (isClique_snoc.1 hc).1 (by
      unfold Allowed at *
      simp only [List.length_append, List.length_singleton] at ha
      omega) (ShortLT.trans (t := b ++ [u]) (by left; simp) hlt)
    rcases h.closed b u hc ha hb with h1 | ⟨e', he, h1⟩
    · exact h1
    · exfalso
      have hs := h.sorted
      rw [List.pairwise_append, List.map_cons, List.pairwise_cons] at hs
      simp only [List.mem_cons] at he
      rcases he with rfl | he
      · rw [h1] at hlt; exact ShortLT.irrefl _ hlt
      · have := hs.2.1.1 e'.1 (List.mem_map.2 ⟨e', he, rfl⟩)
        rw [h1] at this
        exact ShortLT.irrefl _ (hlt.trans this)

/-- Inserting a smaller vertex into an increasing list. -/
def ins (v : Nat) : List Nat → List Nat
  | [] => [v]
  | a :: l => if v < a then v :: a :: l else a :: ins v l

theorem mem_ins {v x : Nat} {l : List Nat} : x ∈ ins v l ↔ x = v ∨ x ∈ l := by
  induction l with
  | nil => simp [ins]
  | cons a l ih =>
    unfold ins
    split
    · simp
    · simp only [List.mem_cons, ih]; tauto

theorem length_ins (v : Nat) (l : List Nat) : (ins v l).length = l.length + 1 := by
  induction l with
  | nil => rfl
  | cons a l ih => unfold ins; split <;> simp [ih]

theorem isClique_ins {v : Nat} {l : List Nat} (hs : ∀ a b, adj a b = adj b a) (h : IsClique n adj l)
    (hv : v < n) (hnot : v ∉ l) (hadj : ∀ u ∈ l, adj u v = true) : IsClique n adj (ins v l) := by
  induction l with
  | nil => exact ⟨by simp [ins], by simpa [ins] using hv, by simp [ins]⟩
  | cons a l ih =>
    obtain ⟨h1, h2, h3⟩ := h
    rw [List.pairwise_cons] at h1 h3
    simp only [List.mem_cons, not_or] at hnot
    have ih := ih ⟨h1.2, fun x hx => h2 x (by simp [hx]), h3.2⟩ hnot.2 (fun u hu => hadj u (by simp [hu]))
    unfold ins
    split
    · rename_i hlt
      refine ⟨?_, ?_, ?_⟩
      · rw [List.pairwise_cons]
        refine ⟨?_, List.pairwise_cons.2 h1⟩
        intro x hx
        simp only [List.mem_cons] at hx
        rcases hx with rfl | hx
        · exact hlt
        · exact Nat.lt_trans hlt (h1.1 x hx)
      · intro x hx
        simp only [List.mem_cons] at hx
        rcases hx with rfl | hx
        · exact hv
        · exact h2 x (by simpa using hx)
      · rw [List.pairwise_cons]
        refine ⟨?_, List.pairwise_cons.2 h3⟩
        intro x hx
        rw [hs]
        exact hadj x hx
    · rename_i hlt
      refine ⟨?_, ?_, ?_⟩
      · rw [List.pairwise_cons]
        refine ⟨?_, ih.sorted⟩
        intro x hx
        rw [mem_ins] at hx
        rcases hx with rfl | hx
        · omega
        · exact h1.1 x hx
      · intro x hx
        simp only [List.mem_cons] at hx
        rcases hx with rfl | hx
        · exact h2 x (by simp)
        · exact ih.verts x hx
      · rw [List.pairwise_cons]
        refine ⟨?_, ih.adjacent⟩
        intro x hx
        rw [mem_ins] at hx
        rcases hx with rfl | hx
        · exact hadj a (by simp)
        · exact h3.1 x hx

/-- Inserting a vertex smaller than the last one: the list without its last entry precedes the old one. -/
theorem ins_split {v : Nat} {b : List Nat} {u : Nat} (hvu : v < u) (h : v ∉ b ++ [u]) :
    ∃ d, ins v (b ++ [u]) = d ++ [u] ∧ d.length = b.length + 1 ∧ LexLT d (b ++ [u]) := by
  induction b with
  | nil =>
    refine ⟨[v], by simp [ins, hvu], rfl, ?_⟩
    simp [LexLT, hvu]
  | cons a b ih =>
    simp only [List.cons_append, List.mem_cons, not_or] at h
    obtain ⟨d, h1, h2, h3⟩ := ih h.2
    simp only [List.cons_append, ins]
    split
    · rename_i hlt
      exact ⟨v :: a :: b, by simp, by simp, by simp [LexLT, hlt]⟩
    · exact ⟨a :: d, by simp [h1], by simp [h2], by simp [LexLT, h3]⟩

theorem bfs_maximal (hs : ∀ a b, adj a b = adj b a) (maxN : Int) (hmax : maxN ≤ 0) (f : Nat) (q : List Entry)
    (P : List (List Nat)) (hf : enoughFuel q ≤ f) (h : Inv n adj maxN P q) (c : List Nat) :
    c ∈ (bfs n adj maxN true f q).2 ↔ c ∈ (bfs n adj maxN true f q).1 ∧ IsMaximal n adj c := by
  induction f generalizing q P with
  | zero => simp [bfs]
  | succ f ih =>
    cases q with
    | nil => simp [bfs]
    | cons e q =>
      have hw := weight_pushed (n := n) (adj := adj) maxN true e
      have ih := ih (q ++ pushed n adj maxN true e) (P ++ [e.1]) (by
        simp only [enoughFuel, List.map_cons, List.sum_cons, List.map_append, List.sum_append] at *
        omega) (inv_step h)
      obtain ⟨b, cn⟩ := e
      obtain ⟨hc, hclq, hall, b', u', e1, hb'⟩ := h.que (b, cn) (by simp)
      simp only at hc hclq hall e1
      subst hc
      have hsorted := h.sorted
      rw [List.pairwise_append, List.map_cons, List.pairwise_cons] at hsorted
      have key : (cand n adj b = [] ∧ ∀ s ∈ q, ¬ (∀ x ∈ b, x ∈ s.1)) ↔ IsMaximal n adj b := by
        constructor
        · rintro ⟨hnil, hq⟩
          refine ⟨hclq, ?_⟩
          intro v hv hvb
          by_contra hcon
          have hadj : ∀ u ∈ b, adj u v = true := by
            intro u hu
            by_contra hh
            exact hcon ⟨u, hu, by simpa using hh⟩
          have hins := isClique_ins hs hclq hv hvb hadj
          subst e1
          have hvu : v < u' := by
            by_contra hge
            have : v ∈ cand n adj (b' ++ [u']) := by
              rw [mem_cand]
              refine ⟨hv, fun w hw => ⟨?_, hadj w hw⟩⟩
              have hwu : w ≤ u' := by
                have hsrt := hclq.sorted
                rw [List.pairwise_append] at hsrt
                simp only [List.mem_append, List.mem_singleton] at hw
                rcases hw with hw | rfl
                · exact Nat.le_of_lt (hsrt.2.2 w hw u' (by simp))
                · exact Nat.le_refl _
              have : v ≠ w := fun e => hvb (e ▸ hw)
              have : v ≠ u' := fun e => hvb (e ▸ (by simp))
              omega
            rw [hnil] at this
            simp at this
          obtain ⟨d, h1, h2, h3⟩ := ins_split hvu hvb
          rw [h1] at hins
          have hdP : d ∈ P := h.before (isClique_snoc.1 hins).1 (.inl hmax)
            (.inr ⟨by simp [h2], h3⟩)
          rcases h.closed d u' hins (.inl hmax) hdP with h4 | ⟨s, hsq, h4⟩
          · have := hsorted.2.2 _ h4 (b' ++ [u']) (by simp)
            rcases this with h5 | ⟨h5, _⟩ <;> simp [h2] at h5
          · simp only [List.mem_cons] at hsq
            rcases hsq with rfl | hsq
            · have := congrArg List.length h4
              simp [h2] at this
            · apply hq s hsq
              intro x hx
              rw [h4, ← h1, mem_ins]
              exact .inr hx
        · intro hm
          constructor
          · rw [List.eq_nil_iff_forall_not_mem]
            intro v hv
            rw [mem_cand] at hv
            obtain ⟨u, hu, hne⟩ := hm.maximal v hv.1 (fun hvb => Nat.lt_irrefl _ (hv.2 v hvb).1)
            rw [(hv.2 u hu).2] at hne
            simp at hne
          · intro s hsq hsub
            obtain ⟨_, hsc, _⟩ := h.que s (by simp [hsq])
            have hne : ShortLT b s.1 := hsorted.2.1.1 s.1 (List.mem_map.2 ⟨s, hsq, rfl⟩)
            by_cases hall2 : ∀ x ∈ s.1, x ∈ b
            · have : b = s.1 := by
                have hp : b.Perm s.1 := by
                  rw [List.perm_ext_iff_of_nodup]
                  · intro a; exact ⟨hsub a, hall2 a⟩
                  · exact hclq.sorted.imp (fun h => Nat.ne_of_lt h)
                  · exact hsc.sorted.imp (fun h => Nat.ne_of_lt h)
                exact hp.eq_of_pairwise (fun a b _ _ h1 h2 => by omega) hclq.sorted hsc.sorted
              rw [← this] at hne
              exact ShortLT.irrefl _ hne
            · simp only [not_forall] at hall2
              obtain ⟨v, hv, hvb⟩ := hall2
              obtain ⟨u, hu, hua⟩ := hm.maximal v (hsc.verts v hv) hvb
              have hadj : ∀ a ∈ s.1, ∀ b ∈ s.1, a ≠ b → adj a b = true := by
                intro a ha b hb hab
                obtain ⟨i, hi, rfl⟩ := List.getElem_of_mem ha
                obtain ⟨j, hj, rfl⟩ := List.getElem_of_mem hb
                have hp := List.pairwise_iff_getElem.1 hsc.adjacent
                rcases Nat.lt_trichotomy i j with hij | rfl | hij
                · exact hp i j hi hj hij
                · exact absurd rfl hab
                · rw [hs]; exact hp j i hj hi hij
              rw [hadj u (hsub u hu) v hv (fun e => hvb (e ▸ hu))] at hua
              simp at hua
      have hcond : (true && (cand n adj b).isEmpty && !(q.any fun s => b.all fun x => s.1.contains x)) = true ↔
          IsMaximal n adj b := by
        rw [← key]
        simp only [Bool.true_and, Bool.and_eq_true, List.isEmpty_iff, Bool.not_eq_true', ← Bool.not_eq_true,
          List.any_eq_true, List.all_eq_true, List.contains_iff_mem, not_exists, not_and]
      simp only [bfs, List.mem_cons]
      by_cases hm : IsMaximal n adj b
      · rw [if_pos (hcond.2 hm), List.mem_cons, ih]
        constructor
        · rintro (rfl | ⟨h1, h2⟩)
          · exact ⟨.inl rfl, hm⟩
          · exact ⟨.inr h1, h2⟩
        · rintro ⟨rfl | h1, h2⟩
          · exact .inl rfl
          · exact .inr ⟨h1, h2⟩
      · rw [if_neg (fun hh => hm (hcond.1 hh)), ih]
        constructor
        · rintro ⟨h1, h2⟩
          exact ⟨.inr h1, h2⟩
        · rintro ⟨rfl | h1, h2⟩
          · exact absurd h2 hm
          · exact ⟨h1, h2⟩

theorem bfs_maximal_sublist (maxN : Int) (iso : Bool) (f : Nat) (q : List Entry) :
    (bfs n adj maxN iso f q).2.Sublist (bfs n adj maxN iso f q).1 := by
  induction f generalizing q with
  | zero => simp [bfs]
  | succ f ih =>
    cases q with
    | nil => simp [bfs]
    | cons e q =>
      simp only [bfs]
      split
      · exact (ih _).cons_cons _
      · exact (ih _).cons _

end Verif.Cliques
