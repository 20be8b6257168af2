import Verif.Model.Dataset
import Verif.Model.PyTree
import Verif.Model.PyWriter
import Verif.Spec.Signature
/-
Model of the Python datasets: reverb/dataset.py, timestep_dataset.py and trajectory_dataset.py, from the signature that is given to a `Table`
(server.py) to the attributes that are given to the ops of Model/Dataset.lean. What TensorFlow's `StructureCoder` and the library `tree` do
is modelled as documented there. Server addresses and names are constants of the op; they are strings, not tensors.
-/
namespace Verif

/-- A nested structure of Python, with named tuples. Keys that are not strings are left out
(server.py:98-150, argument `signature`). -/
inductive PNest (α : Type) where
  | leaf (a : α)
  | list (elems : List (PNest α))
  | tuple (elems : List (PNest α))
  | dict (fields : List (String × PNest α))
  | named (fields : List (String × PNest α))

/-- A leaf of what is given as signature: a `TensorSpec`, a `BoundedTensorSpec` (whose bounds are left
out), or something else (server.py:144-150). -/
inductive PyLeaf where
  | spec (c : NamedSpec)
  | bounded (c : NamedSpec)
  | other
  deriving DecidableEq, Repr

namespace PNest
variable {α β : Type}

/-- The truth value: empty lists, tuples and dictionaries are false, a `TensorSpec` is not. A named tuple
is a tuple (server.py:142-150). -/
def truthy : PNest α → Bool
  | .leaf _ => true
  | .list es => !es.isEmpty
  | .tuple es => !es.isEmpty
  | .dict fs => !fs.isEmpty
  | .named fs => !fs.isEmpty

mutual

/-- `tree.flatten_with_path`: dictionaries in the order of their keys, everything else in its own order
(dm-tree, used by trajectory_dataset.py:227-228). -/
def leaves : PNest α → List (List PathStep × α)
  | .leaf a => [([], a)]
  | .list es => leavesElems 0 es
  | .tuple es => leavesElems 0 es
  | .dict fs => (sortEntries (leavesEach fs)).flatMap fun e => e.2.map fun l => (.key e.1 :: l.1, l.2)
  | .named fs => leavesNamed 0 fs

/-- The elements of a list from position `i` on (trajectory_dataset.py:227-228). -/
def leavesElems (i : Nat) : List (PNest α) → List (List PathStep × α)
  | [] => []
  | t :: ts => t.leaves.map (fun l => (.pos i :: l.1, l.2)) ++ leavesElems (i + 1) ts

/-- The entries of a dictionary, each flattened (trajectory_dataset.py:227-228). -/
def leavesEach : List (String × PNest α) → List (String × List (List PathStep × α))
  | [] => []
  | (k, t) :: fs => (k, t.leaves) :: leavesEach fs

/-- The fields of a named tuple from position `i` on (trajectory_dataset.py:227-228). -/
def leavesNamed (i : Nat) : List (String × PNest α) → List (List PathStep × α)
  | [] => []
  | (k, t) :: fs => t.leaves.map (fun l => (.field i k :: l.1, l.2)) ++ leavesNamed (i + 1) fs

end

/-- `tree.flatten` (trajectory_dataset.py:227-228, timestep_dataset.py:248-249, dataset.py:278-279). -/
def flatten (t : PNest α) : List α := t.leaves.map Prod.snd

mutual

/-- `tree.map_structure` (trajectory_dataset.py:209-210, timestep_dataset.py:230-231,
dataset.py:254-259). -/
def map (f : α → β) : PNest α → PNest β
  | .leaf a => .leaf (f a)
  | .list es => .list (mapElems f es)
  | .tuple es => .tuple (mapElems f es)
  | .dict fs => .dict (mapFields f fs)
  | .named fs => .named (mapFields f fs)

/-- The elements of a list (trajectory_dataset.py:209-210). -/
def mapElems (f : α → β) : List (PNest α) → List (PNest β)
  | [] => []
  | t :: ts => t.map f :: mapElems f ts

/-- The values of a dictionary or named tuple (trajectory_dataset.py:209-210). -/
def mapFields (f : α → β) : List (String × PNest α) → List (String × PNest β)
  | [] => []
  | (k, t) :: fs => (k, t.map f) :: mapFields f fs

end

mutual

/-- trajectory_dataset.py:243-246, timestep_dataset.py:264-267, dataset.py:296-299 `_convert_lists_to_tuples`. -/
def tuples : PNest α → PNest α
  | .leaf a => .leaf a
  | .list es => .tuple (tuplesElems es)
  | .tuple es => .tuple (tuplesElems es)
  | .dict fs => .dict (tuplesFields fs)
  | .named fs => .named (tuplesFields fs)

/-- The elements of a list (trajectory_dataset.py:243-246). -/
def tuplesElems : List (PNest α) → List (PNest α)
  | [] => []
  | t :: ts => t.tuples :: tuplesElems ts

/-- The values of a dictionary or named tuple (trajectory_dataset.py:243-246). -/
def tuplesFields : List (String × PNest α) → List (String × PNest α)
  | [] => []
  | (k, t) :: fs => (k, t.tuples) :: tuplesFields fs

end

mutual

/-- `StructureCoder.encode_structure`, which is called only with leaves that are specs (server.py:144-150). -/
def encode : PNest PyLeaf → Sig
  | .leaf (.spec c) => .spec c
  | .leaf (.bounded c) => .bounded c
  | .leaf .other => .other
  | .list es => .list (encodeElems es)
  | .tuple es => .tuple (encodeElems es)
  | .dict fs => .dict (encodeFields fs)
  | .named fs => .named (encodeFields fs)

/-- The elements of a list (server.py:144-150). -/
def encodeElems : List (PNest PyLeaf) → List Sig
  | [] => []
  | t :: ts => t.encode :: encodeElems ts

/-- The values of a dictionary or named tuple (server.py:144-150). -/
def encodeFields : List (String × PNest PyLeaf) → List (String × Sig)
  | [] => []
  | (k, t) :: fs => (k, t.encode) :: encodeFields fs

end
end PNest

mutual

/-- `StructureCoder.decode_proto` (reverb_types.py:82). -/
def Sig.decode : Sig → PNest PyLeaf
  | .spec c => .leaf (.spec c)
  | .bounded c => .leaf (.bounded c)
  | .other => .leaf .other
  | .list vs => .list (Sig.decodeElems vs)
  | .tuple vs => .tuple (Sig.decodeElems vs)
  | .dict fs => .dict (Sig.decodeFields fs)
  | .named fs => .named (Sig.decodeFields fs)

/-- The elements of a list (reverb_types.py:82). -/
def Sig.decodeElems : List Sig → List (PNest PyLeaf)
  | [] => []
  | v :: vs => v.decode :: Sig.decodeElems vs

/-- The values of a dictionary or named tuple (reverb_types.py:82). -/
def Sig.decodeFields : List (String × Sig) → List (String × PNest PyLeaf)
  | [] => []
  | (k, v) :: fs => (k, v.decode) :: Sig.decodeFields fs

end

/-- server.py:143-152: what the constructor of `Table` makes of the signature that is given to it. -/
def tableSignature : Option (PNest PyLeaf) → PyRes (Option Sig)
  | none => .ok none
  | some t =>
    if t.truthy then
      if t.flatten.any (· = .other) then .raised .valueError else .ok (some t.encode)
    else .ok none

/-- The three classes (dataset.py:32-48, timestep_dataset.py:32-61, trajectory_dataset.py:32-40). -/
inductive PyDatasetKind where
  | timestep
  | trajectory
  /-- dataset.py `ReplayDataset` with `sequence_length` and `emit_timesteps` -/
  | replay (length : Option Int) (emit : Bool)
  deriving DecidableEq, Repr

/-- The arguments of the constructors (dataset.py:48-61, timestep_dataset.py:63-72,
trajectory_dataset.py:42-51). -/
structure PyDatasetArgs where
  kind : PyDatasetKind
  inFlight : Int
  numWorkers : Int
  perStream : Int
  timeoutMs : Int
  flexible : Int
  deriving DecidableEq, Repr

/-- dataset.py:137-140: `sequence_length` is not `None` and less than 1. -/
def PyDatasetKind.shortLength : PyDatasetKind → Bool
  | .replay (some n) _ => n < 1
  | _ => false

/-- dataset.py:125-147, trajectory_dataset.py:103-121 and timestep_dataset.py:124-142: is there no `ValueError`? -/
def PyDatasetArgs.good (a : PyDatasetArgs) : Bool :=
  if a.inFlight < 1 then false
  else if a.numWorkers < 1 ∧ a.numWorkers ≠ -1 then false
  else if a.perStream < 1 ∧ a.perStream ≠ -1 then false
  else if a.kind.shortLength then false
  else if a.timeoutMs < -1 then false
  else if a.flexible < 1 ∧ a.flexible ≠ -1 then false
  else true

/-- dataset.py:154 and 258 `[sequence_length]`. -/
def lengthDim (length : Option Int) : Option Nat := length.map Int.toNat

/-- dataset.py:152-158, trajectory_dataset.py:126-132, timestep_dataset.py:147-153: the shape of the four entries of the info. -/
def PyDatasetKind.infoShape : PyDatasetKind → PShape
  | .replay length false => some [lengthDim length]
  | _ => some []

/-- dataset.py:164-170 `_validate_batch_dim`: is there no `ValueError`? `ndims` is `None` if the rank is unknown. -/
def batchDimFits (length : Option Int) : PShape → Bool
  | none => false
  | some [] => false
  | some (d :: _) => d == lengthDim length

/-- An object of one of the classes. `spec` has the structure of `self._dtypes` and of `self._shapes`,
and their values (dataset.py:150-182, timestep_dataset.py:143-178, trajectory_dataset.py:122-157). -/
structure PyDataset where
  args : PyDatasetArgs
  spec : PNest TensorSpec

namespace PyDataset

/-- dataset.py:150-159 (the same in the other files): the data and the info (replay_sample.py:43-45 `tf_dtypes`). -/
def withInfo (shape : PShape) (data : PNest TensorSpec) : PNest TensorSpec :=
  .named [("info", .named [("key", .leaf ⟨.uint64, shape⟩), ("probability", .leaf ⟨.double, shape⟩), ("table_size", .leaf ⟨.int64, shape⟩),
    ("priority", .leaf ⟨.double, shape⟩)]), ("data", data)]

/-- The constructors: dataset.py:124-189, timestep_dataset.py:123-168, trajectory_dataset.py:102-147. `dtypes` and `shapes` are one structure
here, as in `from_table_signature`; if they differ, `tree.assert_same_structure` raises first. -/
def new (a : PyDatasetArgs) (data : PNest TensorSpec) : PyRes PyDataset :=
  if a.good then
    match a.kind with
    | .replay length false =>
      if data.flatten.all (fun w => batchDimFits length w.shape) then .ok ⟨a, (withInfo a.kind.infoShape data).tuples⟩
      else .raised .valueError
    | _ => .ok ⟨a, (withInfo a.kind.infoShape data).tuples⟩
  else .raised .valueError

/-- dataset.py:292-293, timestep_dataset.py:260-261, trajectory_dataset.py:239-240: `element_spec`. -/
def elementSpec (d : PyDataset) : PNest TensorSpec := d.spec

/-- dataset.py:274-286, timestep_dataset.py:244-254, trajectory_dataset.py:223-233 `_as_variant_tensor`: the attributes of the op. -/
def attrs (d : PyDataset) : DatasetAttrs where
  kind := match d.args.kind with
    | .timestep => .timestep
    | .trajectory => .trajectory
    | .replay length emit => .reverb emit (match length with | none => -1 | some n => if n = 0 then -1 else n)
  inFlight := d.args.inFlight
  numWorkers := d.args.numWorkers
  perStream := d.args.perStream
  timeoutMs := d.args.timeoutMs
  flexible := d.args.flexible
  specs := d.spec.flatten

end PyDataset

/-- `x.dtype` and `x.shape` of a leaf of a signature. There is no `shape` if it is not a spec, which
`Table` excludes (trajectory_dataset.py:209-210, timestep_dataset.py:230-231, dataset.py:254-255). -/
def PyLeaf.spec? : PyLeaf → Option TensorSpec
  | .spec c => some c.spec
  | .bounded c => some c.spec
  | .other => none

/-- dataset.py:258-259: `batch_dim.concatenate`, which gives an unknown rank if it gets one. -/
def addBatchDim (length : Option Int) (w : TensorSpec) : TensorSpec := ⟨w.dtype, w.shape.map (lengthDim length :: ·)⟩

/-- `from_table_signature`: dataset.py:243-272, timestep_dataset.py:219-242, trajectory_dataset.py:198-221. `infos` is the answer to
`server_info`: the tables with their signatures. That the server does not answer is left out (an error of the status is raised), and a leaf
that is not a spec is an `AttributeError`, given as `TypeError` here. -/
def fromTableSignature (infos : List (String × Option Sig)) (table : String) (a : PyDatasetArgs) : PyRes PyDataset :=
  match infos.lookup table with
  | none => .raised .valueError
  | some none => .raised .valueError
  | some (some s) =>
    if s.decode.truthy then
      if s.decode.flatten.any (fun l => l.spec?.isNone) then .raised .typeError
      else
        let data := s.decode.map fun l => l.spec?.getD ⟨.int32, none⟩
        match a.kind with
        | .replay length false => PyDataset.new a (data.map (addBatchDim length))
        | _ => PyDataset.new a data
    else .raised .valueError

end Verif
