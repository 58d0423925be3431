import Mathlib.Algebra.BigOperators.Group.List.Basic
import Mathlib.Algebra.BigOperators.Ring.List
import Mathlib.Tactic.Ring
import Mathlib.Data.List.Induction
import Mathlib.Tactic.Abel
import Verif.CollinsGisin.Blocks
/-! Inclusion-exclusion over the last outcomes. -/
namespace Verif.CollinsGisin
open Verif.Orbits

/-- Signed products of alternatives, as lists of outcomes. -/
def combine (X Y : List (Bool × List Nat)) : List (Bool × List Nat) :=
  X.flatMap fun x => Y.map fun y => (xor x.1 y.1, x.2 ++ y.2)

/-- The alternatives of a measurement: nothing, or minus one of the outcomes other than the last. -/
def alt (b : List Nat) : List (Bool × List Nat) := (false, []) :: b.dropLast.map fun r => (true, [r])

/-- All signed combinations. -/
def combos (bs : List (List Nat)) : List (Bool × List Nat) := bs.foldl (fun X b => combine X (alt b)) [(false, [])]

section
variable {K : Type} [Ring K]

/-- Sign of a term. -/
def sg (s : Bool) : K := if s then -1 else 1

theorem sg_xor (s t : Bool) : (sg (xor s t) : K) = sg s * sg t := by cases s <;> cases t <;> simp [sg]

/-- Signed sum. -/
def val (X : List (Bool × List Nat)) (f : List Nat → K) : K := (X.map fun x => sg x.1 * f x.2).sum

theorem sum_mul_left (l : List α) (f : α → K) (c : K) : (l.map fun x => c * f x).sum = c * (l.map f).sum :=
  List.sum_map_mul_left l f c

theorem sum_flatMap' {α β : Type} (l : List α) (g : α → List β) (f : β → K) :
    ((l.flatMap g).map f).sum = (l.map fun a => ((g a).map f).sum).sum := by
  induction l with
  | nil => simp
  | cons a l ih => simp [ih]

theorem val_combine (X Y : List (Bool × List Nat)) (f : List Nat → K) :
    val (combine X Y) f = val X fun u => val Y fun w => f (u ++ w) := by
  unfold val combine
  rw [sum_flatMap']
  congr 1
  apply List.map_congr_left
  intro x _
  rw [List.map_map, ← sum_mul_left]
  congr 1
  apply List.map_congr_left
  intro y _
  simp [sg_xor, mul_assoc]

theorem val_cons (x : Bool × List Nat) (X : List (Bool × List Nat)) (f : List Nat → K) :
    val (x :: X) f = sg x.1 * f x.2 + val X f := by simp [val]

theorem val_nil (f : List Nat → K) : val [] f = 0 := by simp [val]

theorem val_sub (X : List (Bool × List Nat)) (f g : List Nat → K) : val X (fun u => f u - g u) = val X f - val X g := by
  induction X with
  | nil => simp [val_nil]
  | cons x X ih => rw [val_cons, val_cons, val_cons, ih, mul_sub]; abel

theorem val_add (X : List (Bool × List Nat)) (f g : List Nat → K) : val X (fun u => f u + g u) = val X f + val X g := by
  induction X with
  | nil => simp [val_nil]
  | cons x X ih => rw [val_cons, val_cons, val_cons, ih, mul_add]; abel

theorem val_sum (X : List (Bool × List Nat)) (l : List α) (f : α → List Nat → K) :
    val X (fun u => (l.map fun r => f r u).sum) = (l.map fun r => val X (f r)).sum := by
  induction l with
  | nil => simp [val]
  | cons a l ih =>
    simp only [List.map_cons, List.sum_cons]
    rw [← ih, val_add]

theorem val_alt (b : List Nat) (f : List Nat → K) : val (alt b) f = f [] - (b.dropLast.map fun r => f [r]).sum := by
  unfold val alt
  simp only [List.map_cons, List.sum_cons, List.map_map, sg, Bool.false_eq_true, if_false, one_mul, sub_eq_add_neg]
  congr 1
  induction b.dropLast with
  | nil => simp
  | cons a l ih => simp only [List.map_cons, List.sum_cons, ih, Function.comp, if_true]; simp only [neg_add_rev, neg_mul, one_mul]; abel

theorem val_congr {X : List (Bool × List Nat)} {f g : List Nat → K} (h : ∀ u, f u = g u) : val X f = val X g := by
  have : f = g := funext h
  rw [this]

end

variable {n : Nat} {blocks : List (List Nat)} {adj : Nat → Nat → Bool}

/-- Every choice of outcomes of the measurements `bs` extends `e` to an event. -/
structure Ext (blocks : List (List Nat)) (adj : Nat → Nat → Bool) (e : List Nat) (bs : List (List Nat)) : Prop where
  mem : ∀ b ∈ bs, b ∈ blocks
  ev : ∀ ch, List.Forall₂ (fun r b => r ∈ b) ch bs → IsEvent blocks adj (e ++ ch)

/-- Last outcomes. -/
def lasts (bs : List (List Nat)) : List Nat := bs.map fun b => b.getLastD 0

theorem lasts_forall (h : BlocksOk n blocks) {bs : List (List Nat)} (hb : ∀ b ∈ bs, b ∈ blocks) :
    List.Forall₂ (fun r b => r ∈ b) (lasts bs) bs := by
  induction bs with
  | nil => exact .nil
  | cons b bs ih =>
    refine .cons ?_ (ih fun c hc => hb c (List.mem_cons_of_mem _ hc))
    have hne := h.nonempty b (hb b (by simp))
    show b.getLastD 0 ∈ b
    rw [List.getLastD_eq_getLast?, List.getLast?_eq_some_getLast hne]
    exact List.getLast_mem hne

theorem Forall₂.snoc {α β : Type} {R : α → β → Prop} {l : List α} {m : List β} {a : α} {b : β} (h : List.Forall₂ R l m) (hab : R a b) :
    List.Forall₂ R (l ++ [a]) (m ++ [b]) := by
  induction h with
  | nil => exact .cons hab .nil
  | cons h1 _ ih => exact .cons h1 ih

theorem incl_excl {K : Type} [Ring K] (h : BlocksOk n blocks) (hs : ∀ a b, adj a b = adj b a) {p : List Bool → K}
    (hp : Marginalises n blocks adj p) (bs : List (List Nat)) :
    ∀ e, Ext blocks adj e bs → val (combos bs) (fun u => p (boolKey n (e ++ u))) = p (boolKey n (e ++ lasts bs)) := by
  induction bs using List.reverseRecOn with
  | nil => intro e _; simp [combos, val, lasts, sg]
  | append_singleton bs b ih =>
    intro e hE
    have hcombo : combos (bs ++ [b]) = combine (combos bs) (alt b) := by simp [combos, List.foldl_append]
    have hb : b ∈ blocks := hE.mem b (by simp)
    have hmem : ∀ c ∈ bs, c ∈ blocks := fun c hc => hE.mem c (by simp [hc])
    have hne := h.nonempty b hb
    have hlast := lasts_forall h hmem
    have hev : ∀ r ∈ b, ∀ ch, List.Forall₂ (fun r b => r ∈ b) ch bs → IsEvent blocks adj (r :: e ++ ch) := by
      intro r hr ch hch
      refine h.isEvent_perm hs ?_ (hE.ev _ (Forall₂.snoc hch hr))
      rw [← List.append_assoc]
      exact List.perm_append_singleton r (e ++ ch)
    rw [hcombo, val_combine]
    have e1 : ∀ u, val (alt b) (fun w => p (boolKey n (e ++ (u ++ w)))) =
        p (boolKey n (e ++ u)) - (b.dropLast.map fun r => p (boolKey n (r :: e ++ u))).sum := by
      intro u
      rw [val_alt]
      simp only [List.append_nil]
      congr 2
      apply List.map_congr_left
      intro r _
      congr 1
      apply boolKey_perm
      rw [← List.append_assoc]
      exact List.perm_append_singleton r (e ++ u)
    rw [val_congr e1, val_sub, val_sum]
    rw [ih e ⟨hmem, fun ch hch => by
      obtain ⟨r, hr⟩ := List.exists_mem_of_ne_nil _ hne
      exact h.isEvent_sublist (by simp) (hev r hr ch hch)⟩]
    have e2 : (b.dropLast.map fun r => val (combos bs) fun u => p (boolKey n (r :: e ++ u))) =
        b.dropLast.map fun r => p (boolKey n (r :: (e ++ lasts bs))) := by
      apply List.map_congr_left
      intro r hr
      exact ih (r :: e) ⟨hmem, hev r ((List.dropLast_sublist _).subset hr)⟩
    rw [e2]
    have hm := hp b (e ++ lasts bs) hb (fun r hr => hev r hr _ hlast)
    have hsplit : b = b.dropLast ++ [b.getLastD 0] := by
      rw [List.getLastD_eq_getLast?, List.getLast?_eq_some_getLast hne]
      exact (List.dropLast_append_getLast hne).symm
    have e3 : (b.map fun r => p (boolKey n (r :: (e ++ lasts bs)))).sum =
        (b.dropLast.map fun r => p (boolKey n (r :: (e ++ lasts bs)))).sum + p (boolKey n (b.getLastD 0 :: (e ++ lasts bs))) := by
      conv_lhs => rw [hsplit]
      simp
    rw [e3] at hm
    rw [← hm]
    have e4 : boolKey n (e ++ lasts (bs ++ [b])) = boolKey n (b.getLastD 0 :: (e ++ lasts bs)) := by
      apply boolKey_perm
      simp only [lasts, List.map_append, List.map_cons, List.map_nil]
      rw [← List.append_assoc]
      exact List.perm_append_singleton _ _
    rw [e4]
    abel

end Verif.CollinsGisin
