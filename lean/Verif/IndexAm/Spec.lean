import Verif.IndexAm.Model

/-! # What a secondary index must give -/

namespace Verif.IndexAm

/-- The values which a row has in the declared columns of an index. -/
def values (d : Def) (r : Row) : List (Option Nat) := d.fields.map r.get

/-- The rows which a scan of the index with the condition `q` on its columns must
return. -/
def wanted (d : Def) (rows : List Row) (q : List (Option Nat) → Bool) : List Row :=
  rows.filter fun r => d.pred r && q (values d r)

/-- The values which a row has in the key columns of an index. -/
def keyValues (d : Def) (r : Row) : List (Option Nat) := (d.fields.take d.nkey).map r.get

/-- The two rows have equal values in all key columns, as the index compares them. -/
def sameKey (cls : Nat → Nat) (d : Def) (a b : Row) : Prop :=
  (keyValues d a).map (Option.map cls) = (keyValues d b).map (Option.map cls)

/-- Indexes for which C73 and C74 hold: no column is listed twice, no column of the
primary key is in the INCLUDE list, and no column has the type `tid`.  (The other
conditions are met by every declaration.) -/
structure Plain (t : Table) (d : Def) : Prop where
  nkey : d.nkey ≤ d.fields.length
  kinds : ∀ f ∈ d.fields, f.kind ≠ .ctid
  once : d.fields.Pairwise fun f g => f.sameCol g = false
  noPk : ∀ f ∈ d.fields.drop d.nkey, ∀ g ∈ t.pk.getD [], g.sameCol f = false
  noTid : ∀ f ∈ d.fields, f.tid = false
  pkCols : ∀ g ∈ t.pk.getD [], g.kind = .col ∧ g.tid = false
  pkOnce : (t.pk.getD []).Pairwise fun f g => f.sameCol g = false

end Verif.IndexAm
