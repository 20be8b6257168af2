import Verif.Model.PySample
import Verif.Spec.Sample
/-
Words for C102.
-/
namespace Verif

/-- What `Client.sample` says about the item besides the data. -/
def SampleInfo.py (i : SampleInfo) : PyInfo := ⟨i.key, i.probability, i.tableSize, i.priority⟩

/-- The arrays are the `k`-th rows of the columns. -/
def RowsAt (cols : List RowColumn) (k : Nat) (arrays : List Tensor) : Prop := arrays.map some = cols.map fun c => c.rows[k]?

/-- One sample for each row: it has this row of each column, as a list, and the information about the item. -/
def StepsOf (info : SampleInfo) (cols : List RowColumn) (l : List ReplaySample) : Prop :=
  (∀ c ∈ cols, c.rows.length = l.length) ∧
  ∀ (k : Nat) (s : ReplaySample), l[k]? = some s → s.info = info.py ∧ ∃ arrays, s.data = .flat arrays ∧ RowsAt cols k arrays

/-- The structure has the arrays at the places of the leaves of the signature, in the order of `tree.flatten`. -/
def Unpacked {α : Type} (sig : PTree α) (arrays : List Tensor) (d : PyData) : Prop :=
  ∃ t, d = .nested t ∧ ∀ (p : PyPath) (a : Tensor), t.at? p = some a ↔ ∃ i : Nat, (sig.flattenWithPath.map Prod.fst)[i]? = some p ∧ arrays[i]? = some a

/-- The same for data in the structure of a signature. -/
def NestedStepsOf {α : Type} (sig : PTree α) (info : SampleInfo) (cols : List RowColumn) (l : List ReplaySample) : Prop :=
  (∀ c ∈ cols, c.rows.length = l.length) ∧
  ∀ (k : Nat) (s : ReplaySample), l[k]? = some s → s.info = info.py ∧ ∃ arrays, Unpacked sig arrays s.data ∧ RowsAt cols k arrays

/-- An item that is sound: its trajectory selects these columns, and columns that are marked `squeeze` have one row. -/
structure SampledItem.Has (s : SampledItem) (cols : List RowColumn) : Prop where
  valid : s.Valid
  shows : s.Shows cols
  ne : cols ≠ []
  columns : ∀ c ∈ cols, c.Valid ∧ c.chunks ≠ []
  squeezed : ∀ (i : Nat) (col : Column) (c : RowColumn), s.traj[i]? = some col → cols[i]? = some c → col.squeeze = true → c.rows.length = 1

/-- The documentation of `Client.sample` with `emit_timesteps=True`: a trajectory whose columns have the same number of rows comes as a list of its steps,
and any other is a `ValueError`. -/
def TimestepsAsDocumented : Prop :=
  ∀ (s : SampledItem) (cols : List RowColumn), s.Has cols →
    ∃ smp x, asSampleLocal s = .ok smp ∧ smp.fetch = .ok x ∧
      ((∀ c ∈ cols, ∀ c' ∈ cols, c.rows.length = c'.rows.length) →
        ∃ l, sampleItem true (none : Option (PTree Unit)) x = .ok (.steps l) ∧ StepsOf s.info cols l) ∧
      ((∃ c ∈ cols, ∃ c' ∈ cols, c.rows.length ≠ c'.rows.length) → sampleItem true (none : Option (PTree Unit)) x = .raised .valueError)

end Verif
