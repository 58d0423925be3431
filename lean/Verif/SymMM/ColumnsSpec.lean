import Verif.SymMM.ColumnsModel
namespace Verif.SymMM
open Verif.Canon

/-- What is assumed of the list of columns: distinct monomials in canonical order. -/
structure ColsOk (N : Nat) (nc om : BMat) (commuting : Bool) (cols : List (List Nat)) : Prop where
  lt : ∀ m ∈ cols, ∀ x ∈ m, x < N
  nodup : cols.Nodup
  canon : ∀ m ∈ cols, toCanonical nc om commuting true m = m
  comm : commuting = true → ∀ a b, nc a b = false

end Verif.SymMM
