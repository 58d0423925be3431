import Verif.Cliques.Lemmas
/-
C07 (every compatible set is enumerated exactly once) and C08 (maximal compatible sets).
-/
namespace Verif.Cliques

theorem all_inv (n : Nat) (adj : Nat → Nat → Bool) (maxN : Int) (iso : Bool) :
    Inv n adj maxN (allAndMaximalCliques n adj maxN iso).1 [] := by
  have := bfs_final (n := n) (adj := adj) maxN iso _ _ _ (Nat.le_refl _) (inv_initial maxN)
  simpa [allAndMaximalCliques] using this

/-- **C07.** The list of all cliques contains exactly the cliques of the graph (of size at most `maxN` if a
positive cutoff is given), written increasingly. -/
theorem C07_all_cliques (n : Nat) (adj : Nat → Nat → Bool) (maxN : Int) (iso : Bool) (c : List Nat) :
    c ∈ (allAndMaximalCliques n adj maxN iso).1 ↔
      IsClique n adj c ∧ (maxN ≤ 0 ∨ (c.length : Int) ≤ maxN) :=
  ⟨fun h => (all_inv n adj maxN iso).pop c h, fun h => (all_inv n adj maxN iso).complete h.1 h.2⟩

/-- **C07, order.** They are listed in order of size and, within a size, in dictionary order; in particular none
is listed twice. -/
theorem C07_listed_once_in_order (n : Nat) (adj : Nat → Nat → Bool) (maxN : Int) (iso : Bool) :
    (allAndMaximalCliques n adj maxN iso).1.Pairwise ShortLT ∧
    (allAndMaximalCliques n adj maxN iso).1.Nodup := by
  have h := (all_inv n adj maxN iso).sorted
  simp only [List.map_nil, List.append_nil] at h
  refine ⟨h, ?_⟩
  refine List.Pairwise.imp ?_ h
  intro a b hab e
  subst e
  exact ShortLT.irrefl _ hab

/-- a path 0-1-2 with an isolated vertex 3 -/
def exAdj : Nat → Nat → Bool := fun a b => (a, b) ∈ [(0, 1), (1, 0), (1, 2), (2, 1)]

example : allAndMaximalCliques 4 exAdj 0 true =
    ([[], [0], [1], [2], [3], [0, 1], [1, 2]], [[3], [0, 1], [1, 2]]) := by decide
example : IsClique 4 exAdj [1, 2] := ⟨by decide, by decide, by decide⟩

/-- **C08.** Without a cutoff, on a non-empty undirected graph, the second list contains exactly the
maximal cliques, each once. -/
theorem C08_maximal_cliques (n : Nat) (hn : 1 ≤ n) (adj : Nat → Nat → Bool) (hs : ∀ a b, adj a b = adj b a)
    (maxN : Int) (hmax : maxN ≤ 0) :
    (∀ c, c ∈ (allAndMaximalCliques n adj maxN true).2 ↔ IsMaximal n adj c) ∧
    (allAndMaximalCliques n adj maxN true).2.Nodup := by
  constructor
  · intro c
    have h := bfs_maximal (n := n) (adj := adj) hs maxN hmax _ _ _ (Nat.le_refl _) (inv_initial maxN) c
    unfold allAndMaximalCliques
    simp only
    rw [h]
    refine ⟨fun h => h.2, fun hm => ⟨?_, hm⟩⟩
    have := (C07_all_cliques n adj maxN true c).2 ⟨hm.clique, .inl hmax⟩
    simp only [allAndMaximalCliques, List.mem_cons] at this
    rcases this with rfl | h
    · obtain ⟨u, hu, _⟩ := hm.maximal 0 (by omega) (by simp)
      simp at hu
    · exact h
  · have h := (C07_listed_once_in_order n adj maxN true).2
    unfold allAndMaximalCliques at *
    simp only [List.nodup_cons] at h
    exact List.Nodup.sublist (bfs_maximal_sublist _ _ _ _) h.2

/-- **C08, boundary.** On the graph without vertices the only clique is the empty one, which is maximal, but the
code reports no maximal clique. -/
theorem C08_empty_graph_not_reported :
    (allAndMaximalCliques 0 (fun _ _ => false) 0 true).2 = [] ∧ IsMaximal 0 (fun _ _ => false) [] :=
  ⟨rfl, .nil, fun v hv => absurd hv (by omega)⟩

/-- **C08, cutoff.** With a size cutoff the second list is not the list of maximal cliques, nor the list of
maximal ones among those within the cutoff: in a triangle with cutoff 2 it reports one of the three edges only. -/
theorem C08_cutoff_unreliable :
    let tri : Nat → Nat → Bool := fun a b => a != b
    (allAndMaximalCliques 3 tri 2 true).2 = [[0, 2], [1, 2]] ∧
    ¬ IsMaximal 3 tri [0, 2] ∧ [0, 1] ∈ (allAndMaximalCliques 3 tri 2 true).1 ∧
    [0, 1] ∉ (allAndMaximalCliques 3 tri 2 true).2 := by
  refine ⟨by decide, ?_, by decide, by decide⟩
  intro h
  obtain ⟨u, hu, h1⟩ := h.maximal 1 (by omega) (by decide)
  simp only [List.mem_cons, List.not_mem_nil, or_false] at hu
  rcases hu with rfl | rfl <;> simp at h1

/-- **C08, off switch.** With `isolate_maximal=False` no maximal clique is reported. -/
theorem C08_not_isolated (n : Nat) (adj : Nat → Nat → Bool) (maxN : Int) :
    (allAndMaximalCliques n adj maxN false).2 = [] := by
  have : ∀ f q, (bfs n adj maxN false f q).2 = [] := by
    intro f
    induction f with
    | zero => intro q; rfl
    | succ f ih =>
      intro q
      cases q with
      | nil => rfl
      | cons e q => simp [bfs, ih]
  exact this _ _

example : IsMaximal 4 exAdj [3] ∧ (∀ a b, exAdj a b = exAdj b a) := by
  refine ⟨⟨⟨by decide, by decide, by decide⟩, ?_⟩, ?_⟩
  · intro v hv hne
    refine ⟨3, by simp, ?_⟩
    have : v = 0 ∨ v = 1 ∨ v = 2 ∨ v = 3 := by omega
    rcases this with rfl | rfl | rfl | rfl <;> decide
  · intro a b
    simp only [exAdj, List.mem_cons, Prod.mk.injEq, List.not_mem_nil, or_false, decide_eq_decide]
    tauto

end Verif.Cliques
