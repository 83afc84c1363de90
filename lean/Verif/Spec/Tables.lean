import Mathlib.Data.List.Nodup

/-!
# Tables with labelled rows
-/

namespace Verif.Spec

/-- Every label occurs at most once in the table, and the rows are those allowed by `R`. -/
def Tabulates {ι α : Type} (table : List (ι × α)) (R : ι → α → Prop) : Prop :=
  (table.map Prod.fst).Nodup ∧ ∀ i v, (i, v) ∈ table ↔ R i v

end Verif.Spec
