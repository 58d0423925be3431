import Verif.SdpWriter.Read
import Verif.SdpWriter.Count
/-
C51 for the SDPA format: the exported file says the same as the problem.
-/
namespace Verif.SdpWriter
open Verif.Text Verif.State Verif.SdpSolver Verif.Common

set_option linter.unusedSectionVars false

variable {K : Type} {n : Nat} [Field K] [LinearOrder K]

/-- The moments which are variables of the exported program: unknown moments of the matrix, and moments of which a moment of the matrix is a known multiple. -/
def Prob.IsVar (p : Prob K n) (k : Nat) : Prop :=
  ((∃ i j, p.mm i j = k) ∧ 2 ≤ k ∧ k ∉ p.known.keys ∧ k ∉ p.semi.keys) ∨ ∃ s ∈ p.semi, s.2.2 = k ∧ ∃ i j, p.mm i j = s.1

/-- Everything mentioned in the objective, the bounds and the constraints has a place in the file. -/
structure Prob.Mentions (p : Prob K n) : Prop where
  constant : 1 ∈ p.objective.keys
  objective : ∀ k ∈ p.objective.keys, k = 1 ∨ p.IsVar k
  bounds : ∀ t ∈ p.upper ++ p.lower, t.1 = 1 ∨ t.1 ∈ p.known.keys ∨ t.1 ∈ p.semi.keys ∨ p.IsVar t.1
  constraints : ∀ d ∈ p.eqs ++ p.ineqs, ∀ k ∈ d.keys, k = 1 ∨ p.known.get k = some 0 ∨ p.IsVar k

theorem isVar_iff (p : Prob K n) (hp : p.Ok) (k : Nat) : p.IsVar k ↔ ∃ a, (matrixPart p).vc.get k = some a := by
  rw [← mem_keys, vc_keys p hp k]
  rfl

theorem mapM_isSome {α β : Type} (f : α → Option β) (l : List α) : (∃ r, l.mapM f = some r) ↔ ∀ a ∈ l, ∃ b, f a = some b := by
  induction l with
  | nil => simp
  | cons a l ih =>
    rw [List.mapM_cons]
    constructor
    · rintro ⟨r, hr⟩ c hc
      rcases ha : f a with _ | b
      · rw [ha] at hr; cases hr
      · rcases hl : l.mapM f with _ | r'
        · rw [ha, hl] at hr; cases hr
        · rcases List.mem_cons.1 hc with rfl | hc
          · exact ⟨b, ha⟩
          · exact ih.1 ⟨r', hl⟩ c hc
    · intro h
      obtain ⟨b, hb⟩ := h a (by simp)
      obtain ⟨r, hr⟩ := ih.2 fun c hc => h c (by simp [hc])
      exact ⟨b :: r, by rw [hb, hr]; rfl⟩

theorem gather_isSome {α : Type} (f : α × Nat → Option (List (Ln K))) (l : List α) (Q : α → Prop) (h : ∀ a k, (∃ b, f (a, k) = some b) ↔ Q a) :
    (∃ r, gather f l = some r) ↔ ∀ a ∈ l, Q a := by
  have e : (∃ r, gather f l = some r) ↔ ∃ r, l.zipIdx.mapM f = some r := by
    unfold gather
    constructor
    · rintro ⟨r, hr⟩
      rcases hm : l.zipIdx.mapM f with _ | r'
      · rw [hm] at hr; cases hr
      · exact ⟨r', rfl⟩
    · rintro ⟨r, hr⟩
      exact ⟨r.flatten, by rw [hr]; rfl⟩
  rw [e, mapM_isSome]
  constructor
  · intro hall a ha
    obtain ⟨i, hi, rfl⟩ := List.mem_iff_getElem.1 ha
    exact (h _ i).1 (hall (l[i], i) (by rw [List.mem_zipIdx_iff_getElem?]; exact List.getElem?_eq_getElem hi))
  · intro hq t ht
    exact (h t.1 t.2).2 (hq _ (List.fst_mem_of_mem_zipIdx ht))

theorem objFold_isSome (p : Prob K n) (vc : Dict Nat Nat) (d : Dict Nat K) (l : List K) (hb : ∀ k a, vc.get k = some a → a - 1 < l.length) :
    (∃ r, d.foldl (objStep vc) (some l) = some r) ↔ ∀ k ∈ d.keys, k = 1 ∨ ∃ a, vc.get k = some a := by
  induction d generalizing l with
  | nil => simp [Dict.keys]
  | cons t d ih =>
    rw [List.foldl_cons]
    have hcons : (∀ k ∈ Dict.keys (t :: d), k = 1 ∨ ∃ a, vc.get k = some a) ↔
        (t.1 = 1 ∨ ∃ a, vc.get t.1 = some a) ∧ ∀ k ∈ Dict.keys d, k = 1 ∨ ∃ a, vc.get k = some a := by
      simp [Dict.keys]
    rw [hcons]
    by_cases h1 : t.1 = 1
    · have e : objStep vc (some l) t = some l := by simp [objStep, h1]
      rw [e, ih l hb]
      simp [h1]
    · rcases ha : vc.get t.1 with _ | a
      · have e : objStep vc (some l) t = none := by simp [objStep, h1, ha]
        rw [e, objFold_none]
        simp [h1]
      · have e : objStep vc (some l) t = some (l.set (a - 1) t.2) := by simp [objStep, h1, ha, hb _ _ ha]
        rw [e, ih _ (by simpa using hb)]
        simp

theorem objVec_isSome (p : Prob K n) (hp : p.Ok) (hc : p.Countable) :
    (∃ r, objVec p (matrixPart p).vc = some r) ↔ ∀ k ∈ p.objective.keys, k = 1 ∨ p.IsVar k := by
  have hn := nvars_eq p hp hc
  have hN := (matrix_spec p).1
  unfold objVec
  rw [if_neg (by omega)]
  have := objFold_isSome p (matrixPart p).vc p.objective (List.replicate (nvars p).toNat 0) (by
    intro k a ha
    have h1 := hN.le _ _ ha
    have h2 := hN.next
    rw [List.length_replicate, hn]
    omega)
  refine this.trans ?_
  constructor
  · intro h k hk
    exact (h k hk).imp id (isVar_iff p hp k).2
  · intro h k hk
    exact (h k hk).imp id (isVar_iff p hp k).1

theorem allLines_isSome (tol : K) (p : Prob K n) : (∃ r, allLines tol p = some r) ↔
    (∃ r, gather (upperLines tol (matrixPart p).vc (upperBlock p)) (active p p.upper) = some r)
    ∧ (∃ r, gather (lowerLines tol (matrixPart p).vc (lowerBlock p)) (active p p.lower) = some r)
    ∧ (∃ r, gather (eqLines p (matrixPart p).vc (eqBlock p)) p.eqs = some r)
    ∧ ∃ r, gather (ineqLines p (matrixPart p).vc (ineqBlock p)) p.ineqs = some r := by
  unfold allLines
  dsimp only
  rcases gather (upperLines tol (matrixPart p).vc (upperBlock p)) (active p p.upper) with _ | u
  · simp
  · rcases gather (lowerLines tol (matrixPart p).vc (lowerBlock p)) (active p p.lower) with _ | l
    · simp
    · rcases gather (eqLines p (matrixPart p).vc (eqBlock p)) p.eqs with _ | e
      · simp
      · rcases gather (ineqLines p (matrixPart p).vc (ineqBlock p)) p.ineqs with _ | i
        · simp
        · simp

theorem mapM_map_isSome {α β γ : Type} (f : α → Option β) (g : List β → γ) (l : List α) :
    (∃ r, (l.mapM f).map g = some r) ↔ ∀ a ∈ l, ∃ b, f a = some b := by
  rw [← mapM_isSome]
  rcases l.mapM f with _ | r
  · simp
  · simp

theorem map_isSome' {α β : Type} (o : Option α) (g : α → β) : (∃ r, o.map g = some r) ↔ ∃ a, o = some a := by
  cases o <;> simp

theorem active_bounds (p : Prob K n) (hp : p.Ok) (d : Dict Nat K) :
    (∀ t ∈ active p d, ∃ a, (matrixPart p).vc.get t.1 = some a) ↔ ∀ t ∈ d, t.1 = 1 ∨ t.1 ∈ p.known.keys ∨ t.1 ∈ p.semi.keys ∨ p.IsVar t.1 := by
  constructor
  · intro h t ht
    by_cases h1 : t.1 = 1
    · exact Or.inl h1
    · by_cases h2 : t.1 ∈ p.known.keys
      · exact Or.inr (Or.inl h2)
      · by_cases h3 : t.1 ∈ p.semi.keys
        · exact Or.inr (Or.inr (Or.inl h3))
        · exact Or.inr (Or.inr (Or.inr ((isVar_iff p hp _).2 (h t ((mem_active p d t).2 ⟨ht, h1, (get_none _ _).2 h2, (get_none _ _).2 h3⟩)))))
  · intro h t ht
    obtain ⟨h0, h1, h2, h3⟩ := (mem_active p d t).1 ht
    rcases h t h0 with h | h | h | h
    · exact absurd h h1
    · exact absurd h ((get_none _ _).1 h2)
    · exact absurd h ((get_none _ _).1 h3)
    · exact (isVar_iff p hp _).1 h

/-- **C51 (SDPA), when a file is written.** The export succeeds exactly when everything mentioned in the objective, the bounds and the constraints is the constant, an unknown
moment of the matrix, or (in bounds) a known or semi-known moment, or (in constraints) a moment with value zero. In particular a constraint on a moment with another known value,
or on a semi-known moment, or an objective with a known moment, raises an exception. -/
theorem C51_sdpa_written_iff (fmt : K → Str) (tol : K) (filename : Str) (p : Prob K n) (hp : p.Ok) (hc : p.Countable) :
    (∃ txt, writeToSdpa fmt tol filename p = some txt) ↔ p.Mentions := by
  unfold writeToSdpa
  rw [map_isSome']
  have e : (∃ f, sdpaFile tol p = some f) ↔ (∃ r, objVec p (matrixPart p).vc = some r) ∧ (∃ c, p.objective.get 1 = some c) ∧ ∃ r, allLines tol p = some r := by
    unfold sdpaFile
    rcases objVec p (matrixPart p).vc with _ | o
    · simp
    · rcases p.objective.get 1 with _ | c
      · simp
      · rcases allLines tol p with _ | l
        · simp
        · simp
  rw [e, objVec_isSome p hp hc, ← mem_keys, allLines_isSome]
  have hb : ∀ (d : Dict Nat K) (b : Nat), ((∃ r, gather (upperLines tol (matrixPart p).vc b) (active p d) = some r)
      ↔ ∀ t ∈ d, t.1 = 1 ∨ t.1 ∈ p.known.keys ∨ t.1 ∈ p.semi.keys ∨ p.IsVar t.1)
      ∧ ((∃ r, gather (lowerLines tol (matrixPart p).vc b) (active p d) = some r)
      ↔ ∀ t ∈ d, t.1 = 1 ∨ t.1 ∈ p.known.keys ∨ t.1 ∈ p.semi.keys ∨ p.IsVar t.1) := by
    intro d b
    rw [← active_bounds p hp d]
    exact ⟨gather_isSome _ _ (fun t : Nat × K => ∃ a, (matrixPart p).vc.get t.1 = some a) fun a k => by unfold upperLines; rw [map_isSome'],
      gather_isSome _ _ (fun t : Nat × K => ∃ a, (matrixPart p).vc.get t.1 = some a) fun a k => by unfold lowerLines; rw [map_isSome']⟩
  have hterm : ∀ t : Nat × K, (∀ b ii, (∃ r, eqTerm p (matrixPart p).vc b ii t = some r) ↔ t.1 = 1 ∨ p.known.get t.1 = some 0 ∨ p.IsVar t.1)
      ∧ ∀ b ii, (∃ r, ineqTerm p (matrixPart p).vc b ii t = some r) ↔ t.1 = 1 ∨ p.known.get t.1 = some 0 ∨ p.IsVar t.1 := by
    intro t
    constructor <;> intro b ii
    · unfold eqTerm
      by_cases h0 : p.known.get t.1 = some 0
      · simp [h0]
      · by_cases h1 : t.1 = 1
        · rw [if_neg h0, if_pos h1]; simp [h1]
        · rw [if_neg h0, if_neg h1, map_isSome', ← isVar_iff p hp]
          simp [h0, h1]
    · unfold ineqTerm
      by_cases h0 : p.known.get t.1 = some 0
      · simp [h0]
      · by_cases h1 : t.1 = 1
        · rw [if_neg h0, if_pos h1]; simp [h1]
        · rw [if_neg h0, if_neg h1, map_isSome', ← isVar_iff p hp]
          simp [h0, h1]
  have hkeys : ∀ (d : Dict Nat K) (Q : Nat → Prop), (∀ t ∈ d, Q t.1) ↔ ∀ k ∈ d.keys, Q k := by
    intro d Q; simp [Dict.keys]
  have heq : (∃ r, gather (eqLines p (matrixPart p).vc (eqBlock p)) p.eqs = some r) ↔
      ∀ d ∈ p.eqs, ∀ k ∈ d.keys, k = 1 ∨ p.known.get k = some 0 ∨ p.IsVar k := by
    refine gather_isSome _ _ (fun d : Dict Nat K => ∀ k ∈ Dict.keys d, k = 1 ∨ p.known.get k = some 0 ∨ p.IsVar k) fun d k => ?_
    unfold eqLines
    rw [mapM_map_isSome, ← hkeys d]
    exact forall₂_congr fun t _ => (hterm t).1 _ _
  have hin : (∃ r, gather (ineqLines p (matrixPart p).vc (ineqBlock p)) p.ineqs = some r) ↔
      ∀ d ∈ p.ineqs, ∀ k ∈ d.keys, k = 1 ∨ p.known.get k = some 0 ∨ p.IsVar k := by
    refine gather_isSome _ _ (fun d : Dict Nat K => ∀ k ∈ Dict.keys d, k = 1 ∨ p.known.get k = some 0 ∨ p.IsVar k) fun d k => ?_
    unfold ineqLines
    rw [mapM_map_isSome, ← hkeys d]
    exact forall₂_congr fun t _ => (hterm t).2 _ _
  rw [(hb p.upper _).1, (hb p.lower _).2, heq, hin]
  constructor
  · rintro ⟨h1, h2, h3, h4, h5, h6⟩
    refine ⟨h2, h1, ?_, ?_⟩
    · intro t ht
      rcases List.mem_append.1 ht with h | h
      · exact h3 t h
      · exact h4 t h
    · intro d hd
      rcases List.mem_append.1 hd with h | h
      · exact h5 d h
      · exact h6 d h
  · intro h
    exact ⟨h.objective, h.constant, fun t ht => h.bounds t (by simp [ht]), fun t ht => h.bounds t (by simp [ht]),
      fun d hd => h.constraints d (by simp [hd]), fun d hd => h.constraints d (by simp [hd])⟩

theorem mem_lines {tol : K} {p : Prob K n} {f : File K} (P : Parts tol p f) (ln : Ln K) (h : ln ∈ f.lines) :
    ln ∈ (matrixPart p).lines ∨ ln ∈ P.u ∨ ln ∈ P.l ∨ ln ∈ P.e ∨ ln ∈ P.i := by
  have := (P.lines.mem_iff).1 h
  simpa [List.mem_append] using this

theorem lines_readable [IsStrictOrderedRing K] {tol : K} {p : Prob K n} {f : File K} (P : Parts tol p f) (he : p.Exportable tol) :
    ∀ l ∈ f.lines, Readable l.val := by
  intro l hl
  rcases mem_lines P l hl with h | h | h | h | h
  · rw [(matrix_spec p).2.2, List.mem_flatMap] at h
    obtain ⟨c, _, h⟩ := h
    unfold cellLine at h
    split at h
    · split at h
      · cases h
      · split at h
        · simp only [List.mem_singleton] at h; subst h; trivial
        · split at h
          · simp only [List.mem_singleton] at h; subst h; exact abs_nonneg _
          · split at h <;> (simp only [List.mem_singleton] at h; subst h; trivial)
    · cases h
  · refine gather_block _ _ _ P.hu (fun l => Readable l.val) (fun t ht out ho ln hln => ?_) l h
    rcases (upper_place _ _ _ t out ho ln hln).2.2.2.2 with e | e
    · rw [e]; trivial
    · rw [e]
      exact he.upper _ ((mem_active p _ _).1 (List.fst_mem_of_mem_zipIdx ht)).1
  · refine gather_block _ _ _ P.hl (fun l => Readable l.val) (fun t ht out ho ln hln => ?_) l h
    rcases (lower_place _ _ _ t out ho ln hln).2.2.2.2 with e | ⟨q, e⟩ <;> rw [e] <;> trivial
  · refine gather_block _ _ _ P.he (fun l => Readable l.val) (fun t ht out ho ln hln => ?_) l h
    obtain ⟨q, e⟩ := (eq_place _ _ _ t out ho ln hln).2.2.2.2
    rw [e]; trivial
  · refine gather_block _ _ _ P.hi (fun l => Readable l.val) (fun t ht out ho ln hln => ?_) l h
    obtain ⟨q, e⟩ := (ineq_place _ _ _ t out ho ln hln).2.2.2.2
    rw [e]; trivial

theorem cellLine_var (p : Prob K n) (c : Fin n × Fin n) (ln : Ln K) (h : ln ∈ cellLine p (matrixPart p).vc c) :
    ln.var = 0 ∨ ∃ k, (matrixPart p).vc.get k = some ln.var := by
  have hkey : ∀ k, cellKey p c = some k → ∃ a, (matrixPart p).vc.get k = some a :=
    fun k hk => ((matrix_spec p).2.1 k).2 ⟨c, mem_cells c, hk⟩
  unfold cellKey at hkey
  unfold cellLine at h
  by_cases hc : c.1 ≤ c.2
  · rw [if_pos hc] at hkey h
    by_cases h0 : p.mm c.1 c.2 = 0
    · rw [if_pos h0] at h; cases h
    · rw [if_neg h0] at h
      by_cases h1 : p.mm c.1 c.2 = 1
      · rw [if_pos h1, List.mem_singleton] at h
        subst h; exact Or.inl rfl
      · rw [if_neg h1] at h
        rw [if_neg (by omega)] at hkey
        rcases hq : p.known.get (p.mm c.1 c.2) with _ | q
        · rw [hq] at hkey h
          rcases hs : p.semi.get (p.mm c.1 c.2) with _ | s
          · rw [hs] at hkey h
            obtain ⟨a, ha⟩ := hkey (p.mm c.1 c.2) (by simp)
            simp only [List.mem_singleton, ha, Option.getD_some] at h
            subst h
            exact Or.inr ⟨_, ha⟩
          · rw [hs] at hkey h
            obtain ⟨a, ha⟩ := hkey s.2 (by simp)
            simp only [List.mem_singleton, ha, Option.getD_some] at h
            subst h
            exact Or.inr ⟨_, ha⟩
        · rw [hq] at h
          simp only [List.mem_singleton] at h
          subst h; exact Or.inl rfl
  · rw [if_neg hc] at h; cases h

variable [IsStrictOrderedRing K] {fmt : K → Str} {num : Str → Option K}

theorem read_written (hf : Prints fmt num) (tol : K) (filename : Str) (hn : '\n' ∉ filename) (p : Prob K n) (hp : p.Ok) (he : p.Exportable tol) (txt : Str)
    (h : writeToSdpa fmt tol filename p = some txt) : ∃ f, sdpaFile tol p = some f ∧ readSdpa num txt = some f.prog := by
  unfold writeToSdpa at h
  rcases hs : sdpaFile tol p with _ | f
  · rw [hs] at h; cases h
  · rw [hs] at h
    cases h
    obtain ⟨P⟩ := parts_of tol p f hs
    exact ⟨f, rfl, read_file hf tol filename hn f (value_eq P hp _ _ (agree_momOf p hp fun _ => 0)).2 (lines_readable P he)⟩

/-- **C51 (SDPA), partial.** Reading the exported file as a program in SDPA format: its feasible points give values of the moments satisfying the problem, and conversely every such
assignment gives a feasible point; the cost is the objective without its constant. Missing in general: negative known values, negative or tiny bounds, bounds on semi-known
moments and more than one inequality (see the witnesses), and the direction: SDPA minimises the cost, the problem maximises the objective. -/
theorem C51_sdpa_partial (hf : Prints fmt num) (tol : K) (filename : Str) (hn : '\n' ∉ filename) (p : Prob K n) (hp : p.Ok) (he : p.Exportable tol) (txt : Str)
    (h : writeToSdpa fmt tol filename p = some txt) :
    ∃ (s : Sdpa K) (c : K), readSdpa num txt = some s ∧ p.objective.get 1 = some c
      ∧ (∀ x, s.Feasible x → ∃ v, p.Feasible v ∧ s.value x = lin p.objective v - c)
      ∧ ∀ v, p.Feasible v → ∃ x, s.Feasible x ∧ s.value x = lin p.objective v - c := by
  obtain ⟨f, hs, hr⟩ := read_written hf tol filename hn p hp he txt h
  obtain ⟨P⟩ := parts_of tol p f hs
  obtain ⟨h1, h2⟩ := prog_equiv hs hp he
  exact ⟨f.prog, f.constant, hr, P.constant, h1, h2⟩

/-- **C51 (SDPA), the file is well-formed (partial).** If moreover the indices have no gaps and no two semi-known moments share a target outside the matrix, every entry of the
file uses a declared variable and lies in a declared block, and the cost vector has the declared length. -/
theorem C51_sdpa_in_range_partial (hf : Prints fmt num) (tol : K) (filename : Str) (hn : '\n' ∉ filename) (p : Prob K n) (hp : p.Ok) (he : p.Exportable tol)
    (hc : p.Countable) (txt : Str) (h : writeToSdpa fmt tol filename p = some txt) : ∃ s : Sdpa K, readSdpa num txt = some s ∧ s.InRange := by
  obtain ⟨f, hs, hr⟩ := read_written hf tol filename hn p hp he txt h
  obtain ⟨P⟩ := parts_of tol p f hs
  refine ⟨f.prog, hr, (value_eq P hp _ _ (agree_momOf p hp fun _ => 0)).2, ?_⟩
  have hN := (matrix_spec p).1
  have hnv : f.nvars = (matrixPart p).vc.length := by rw [P.nv, nvars_eq p hp hc]; rfl
  have hvar : ∀ ln : Ln K, (ln.var = 0 ∨ ∃ k, (matrixPart p).vc.get k = some ln.var) → ln.var ≤ f.nvars := by
    intro ln h
    rcases h with h | ⟨k, hk⟩
    · omega
    · have := hN.le _ _ hk
      have := hN.next
      omega
  intro e hmem
  obtain ⟨ln, hln, rfl⟩ := List.mem_map.1 hmem
  show ln.var ≤ f.nvars ∧ 1 ≤ ln.block ∧ ∃ z, f.blocks[ln.block - 1]? = some z ∧ 1 ≤ ln.i ∧ ln.i ≤ ln.j ∧ ln.j ≤ z.natAbs ∧ (z < 0 → ln.i = ln.j)
  rw [P.blocks]
  have hidx : ∀ {α : Type} (l : List α) (t : α × Nat), t ∈ l.zipIdx → t.2 < l.length := by
    intro α l t ht
    have := List.snd_lt_of_mem_zipIdx ht
    simpa using this
  rcases mem_lines P ln hln with h | h | h | h | h
  · have h' := h
    rw [(matrix_spec p).2.2, List.mem_flatMap] at h
    obtain ⟨c, _, h⟩ := h
    obtain ⟨g0, g1, g2, g3⟩ := cellLine_place p _ c ln h
    refine ⟨?_, by omega, n, (blocks_get p _ _).2 (Or.inl ⟨by omega, rfl⟩), by omega, ?_, ?_, fun h => by omega⟩
    · exact hvar ln (cellLine_var p c ln h)
    · have : c.1.val ≤ c.2.val := g0
      omega
    · have := c.2.isLt
      simp only [Int.natAbs_natCast]
      omega
  · have hst := (u_place P ln h).2
    obtain ⟨g1, g2, g3, g4, g5⟩ := gather_block _ _ _ P.hu (fun l => l.block = upperBlock p ∧ (1 ≤ l.i) ∧ l.i = l.j ∧ l.j ≤ (active p p.upper).length
        ∧ (l.var = 0 ∨ ∃ k, (matrixPart p).vc.get k = some l.var))
      (fun t ht out ho ln hln => by
        obtain ⟨a1, a2, a3, a4, _⟩ := upper_place _ _ _ t out ho ln hln
        have := hidx _ t ht
        exact ⟨a1, by omega, by omega, by omega, a4⟩) ln h
    refine ⟨hvar ln g5, by unfold upperBlock at g1; omega, _, (blocks_get p _ _).2 (Or.inr (Or.inl ⟨hst, by unfold upperBlock at g1 ⊢; omega, rfl⟩)), g2, by omega, ?_,
      fun _ => g3⟩
    simpa using g4
  · have hst := (l_place P ln h).2
    obtain ⟨g1, g2, g3, g4, g5⟩ := gather_block _ _ _ P.hl (fun l => l.block = lowerBlock p ∧ (1 ≤ l.i) ∧ l.i = l.j ∧ l.j ≤ (active p p.lower).length
        ∧ (l.var = 0 ∨ ∃ k, (matrixPart p).vc.get k = some l.var))
      (fun t ht out ho ln hln => by
        obtain ⟨a1, a2, a3, a4, _⟩ := lower_place _ _ _ t out ho ln hln
        have := hidx _ t ht
        exact ⟨a1, by omega, by omega, by omega, a4⟩) ln h
    refine ⟨hvar ln g5, by unfold lowerBlock at g1; omega, _, (blocks_get p _ _).2 (Or.inr (Or.inr (Or.inl ⟨hst, by unfold lowerBlock at g1 ⊢; omega, rfl⟩))), g2, by omega, ?_,
      fun _ => g3⟩
    simpa using g4
  · have hst := (e_place P ln h).2
    obtain ⟨g1, g2, g3, g4, g5⟩ := gather_block _ _ _ P.he (fun l => l.block = eqBlock p ∧ (1 ≤ l.i) ∧ l.i = l.j ∧ l.j ≤ 2 * p.eqs.length
        ∧ (l.var = 0 ∨ ∃ k, (matrixPart p).vc.get k = some l.var))
      (fun t ht out ho ln hln => by
        obtain ⟨a1, a2, a3, a4, _⟩ := eq_place _ _ _ t out ho ln hln
        have := hidx _ t ht
        exact ⟨a1, by omega, by omega, by omega, a4⟩) ln h
    refine ⟨hvar ln g5, by unfold eqBlock at g1; omega, _, (blocks_get p _ _).2 (Or.inr (Or.inr (Or.inr (Or.inl ⟨hst, by unfold eqBlock at g1 ⊢; omega, rfl⟩)))), g2, by omega, ?_,
      fun _ => g3⟩
    simpa only [Int.natAbs_neg, Int.natAbs_natCast] using g4
  · have hst := (i_place P ln h).2
    obtain ⟨g1, g2, g3, g4, g5⟩ := gather_block _ _ _ P.hi (fun l => l.block = ineqBlock p ∧ (1 ≤ l.i) ∧ l.i = l.j ∧ l.j ≤ p.ineqs.length
        ∧ (l.var = 0 ∨ ∃ k, (matrixPart p).vc.get k = some l.var))
      (fun t ht out ho ln hln => by
        obtain ⟨a1, a2, a3, a4, _⟩ := ineq_place _ _ _ t out ho ln hln
        have := hidx _ t ht
        have := he.ineqs
        exact ⟨a1, by omega, by omega, by omega, a4⟩) ln h
    refine ⟨hvar ln g5, by unfold ineqBlock at g1; omega, _, (blocks_get p _ _).2 (Or.inr (Or.inr (Or.inr (Or.inr ⟨hst, by unfold ineqBlock at g1 ⊢; omega, rfl⟩)))), g2, by omega, ?_,
      fun _ => g3⟩
    simpa only [Int.natAbs_neg, Int.natAbs_natCast] using g4

end Verif.SdpWriter
