import Verif.Model.PyTree
import Verif.Model.TrajWriter
/-
reverb/trajectory_writer.py: the writer that users of Python work with, on top of the model of trajectory_writer.cc.
-/
namespace Verif

/-- The exceptions. `status` are those that stand for a status of the C++ writer (pybind.cc:57-82), and `DeadlineExceededError`. -/
inductive PyExc where
  | keyError | valueError | typeError | indexError | runtimeError
  | status (c : Code)
  deriving DecidableEq, Repr

/-- What a call comes to: a value, an exception, or the death of the process (pybind.cc:59-84). -/
inductive PyRes (α : Type) where
  | ok (a : α)
  | raised (e : PyExc)
  | died
  deriving DecidableEq, Repr

/-- trajectory_writer.py:516-572 `_ColumnHistory`. -/
structure ColHist where
  path : PyPath
  refs : List (Option Ref)
  deriving DecidableEq, Repr

namespace ColHist

/-- trajectory_writer.py:534-535 `append`. -/
def append (c : ColHist) (r : Option Ref) : ColHist := { c with refs := c.refs ++ [r] }

/-- trajectory_writer.py:537-538 `reset`. -/
def reset (c : ColHist) : ColHist := { c with refs := [] }

/-- trajectory_writer.py:540-545 `set_last`; `none` is the `RuntimeError`. -/
def setLast (c : ColHist) (r : Ref) : Option ColHist :=
  match c.refs.getLast? with
  | none => none
  | some (some _) => none
  | some none => some { c with refs := c.refs.dropLast ++ [some r] }

/-- trajectory_writer.py:547-549 `can_set_last`. -/
def canSetLast (c : ColHist) : Bool := c.refs.getLast? == some none

end ColHist

/-- trajectory_writer.py:101-134: the members of `TrajectoryWriter`. `struct` is `_structure`, where `None`, which it is at first, is also
the structure of data that is a leaf; `index` is `_path_to_column_index`, `flatToCol`
`_column_index_to_flat_structure_index`, whose keys are the positions, `config` `_path_to_column_config`. `calls` are the calls of the C++
writer so far, with what the threads of that writer did in between; it is a record and not read. -/
structure PyWriter where
  w : TrajWriter
  struct : PTree Unit
  history : List ColHist
  index : AMap PyPath Nat
  flatToCol : List Nat
  config : AMap PyPath ChunkerOpts
  isOpen : Bool
  calls : List TrajWriter.Event

namespace PyWriter

/-- trajectory_writer.py:101-134: the constructor. -/
def new (w : TrajWriter) : PyWriter := ⟨w, .leaf (), [], .empty, [], .empty, false, []⟩

/-- A call of the C++ writer (pybind.cc:880-977). -/
def cpp (s : PyWriter) (e : TrajWriter.Event) : PyWriter × Res TrajWriter.Reply :=
  ({ s with
    w := (s.w.handle e).1
    calls := s.calls ++ [e] }, (s.w.handle e).2)

/-- The exception for a status (pybind.cc:59-84). -/
def lift {α : Type} : Res α → PyRes α
  | .ok a => .ok a
  | .err c => .raised (.status c)
  | .died => .died

/-! ### The structure -/

/-- trajectory_writer.py:481-491: new paths get the next columns, and the options that were given for them. -/
def addPaths (s : PyWriter) : List PyPath → PyWriter × PyRes Unit
  | [] => (s, .ok ())
  | p :: ps =>
    match s.index.get? p with
    | some _ => addPaths s ps
    | none =>
      let i := s.index.size
      let s := { s with index := s.index.insert p i }
      match s.config.get? p with
      | none => addPaths s ps
      | some o =>
        match s.cpp (.configure i o) with
        | (s, .ok _) => addPaths s ps
        | (s, .err c) => (s, .raised (.status c))
        | (s, .died) => (s, .died)

/-- trajectory_writer.py:505: the length of the history. -/
def historyLength (s : PyWriter) : Nat :=
  match s.history with
  | [] => 0
  | c :: _ => c.refs.length

/-- trajectory_writer.py:460-512 `_update_structure`. -/
def updateStructure (s : PyWriter) (new : PTree Unit) : PyWriter × PyRes Unit :=
  let paths := new.flattenWithPath.map Prod.fst
  match s.addPaths paths with
  | (s, .raised e) => (s, .raised e)
  | (s, .died) => (s, .died)
  | (s, .ok ()) =>
    ({ s with
      flatToCol := paths.filterMap s.index.get?
      history := s.history ++ (paths.drop s.history.length).map fun p => ⟨p, List.replicate s.historyLength none⟩
      struct := new }, .ok ())

/-- trajectory_writer.py:443-447 `_reorder_like_flat_structure`; `none` is the `KeyError`. -/
def reorder (s : PyWriter) (flat : List (PyPath × Option Tensor)) : Option (List (Option Tensor)) :=
  flat.foldlM (fun acc e => (s.index.get? e.1).map fun i => acc.set i e.2) (List.replicate s.index.size none)

/-! ### append -/

/-- trajectory_writer.py:290-299: has a column been set already? -/
def conflict (s : PyWriter) (data : List (Option Tensor)) : Bool :=
  (s.history.zip data).any fun p => p.2.isSome && !p.1.canSetLast

/-- trajectory_writer.py:310-317: the references are put into the history; `none` is a `RuntimeError`. -/
def record (isOpen : Bool) : List ColHist → List (Option Ref) → Option (List ColHist)
  | [], _ => some []
  | cs, [] => some cs
  | c :: cs, r :: rs =>
    match (if isOpen = false then some (c.append r)
      else
        match r with
        | none => some c
        | some r => c.setLast r), record isOpen cs rs with
    | some c', some cs' => some (c' :: cs')
    | _, _ => none

/-- trajectory_writer.py:288-321: `append` after the data was put into the order of the columns. -/
def appendFlat (s : PyWriter) (data : List (Option Tensor)) (partialStep : Bool) : PyWriter × PyRes Unit :=
  if s.isOpen && s.conflict data then (s, .raised .valueError)
  else
    match s.cpp (.append data !partialStep) with
    | (s, .ok (.refs refs)) =>
      match record s.isOpen s.history refs with
      | none => (s, .raised .runtimeError)
      | some history => ({ s with
          history := history
          isOpen := partialStep }, .ok ())
    | (s, .ok _) => (s, .died)
    | (s, .err c) => (s, .raised (.status c))
    | (s, .died) => (s, .died)

/-- trajectory_writer.py:272-286: `append` with a known structure. -/
def appendKnown (s : PyWriter) (data : PTree (Option Tensor)) (partialStep : Bool) : PyWriter × PyRes Unit :=
  match s.reorder data.flattenWithPath with
  | some flat => s.appendFlat flat partialStep
  | none =>
    match s.struct.union (data.map fun _ => ()) with
    | none => (s, .raised .typeError)
    | some u =>
      match s.updateStructure u with
      | (s, .raised e) => (s, .raised e)
      | (s, .died) => (s, .died)
      | (s, .ok ()) =>
        match s.reorder data.flattenWithPath with
        | none => (s, .raised .keyError)
        | some flat => s.appendFlat flat partialStep

/-- trajectory_writer.py:237-321 `append`. The conversion of the data to tensors, which may fail, is left out. -/
def append (s : PyWriter) (data : PTree (Option Tensor)) (partialStep : Bool) : PyWriter × PyRes Unit :=
  match s.struct with
  | .dict _ => s.appendKnown data partialStep
  | .seq _ => s.appendKnown data partialStep
  | .leaf () =>
    match s.updateStructure (data.map fun _ => ()) with
    | (s, .raised e) => (s, .raised e)
    | (s, .died) => (s, .died)
    | (s, .ok ()) => s.appendKnown data partialStep

/-! ### The other calls -/

/-- trajectory_writer.py:222-229: the options for a column. -/
def chunkerOptions (keep : Int) : Option Int → ChunkerOpts
  | none => .auto (.new keep 1 false)
  | some m => .constant m keep false

/-- trajectory_writer.py:193-235 `configure`. -/
def configure (s : PyWriter) (path : PyPath) (keep : Int) (maxLen : Option Int) : PyWriter × PyRes Unit :=
  if keep < 1 then (s, .raised .valueError)
  else if maxLen.any fun m => decide (m < 1) || decide (keep < m) then (s, .raised .valueError)
  else
    match s.index.get? path with
    | some i =>
      match s.cpp (.configure i (chunkerOptions keep maxLen)) with
      | (s, .ok _) => (s, .ok ())
      | (s, .err c) => (s, .raised (.status c))
      | (s, .died) => (s, .died)
    | none => ({ s with config := s.config.insert path (chunkerOptions keep maxLen) }, .ok ())

/-- trajectory_writer.py:180-191 `episode_steps`. -/
def episodeSteps (s : PyWriter) : Int :=
  match s.history with
  | [] => 0
  | c :: _ => (c.refs.length : Int) - (if s.isOpen then 1 else 0)

/-- trajectory_writer.py:449-454 `_unflatten`; `none` is an exception. -/
def unflatten {α : Type} (s : PyWriter) (flat : List α) : Option (PTree α) :=
  match (List.range flat.length).mapM fun i => s.flatToCol[i]?.bind fun j => flat[j]? with
  | none => none
  | some reordered => s.struct.unflattenAs reordered

/-- trajectory_writer.py:146-178 `history`; `none` is an exception. -/
def view (s : PyWriter) : Option (PTree ColHist) := if s.history = [] then none else s.unflatten s.history

/-- The history of one field: `writer.history[x1][x2]...` (trajectory_writer.py:147-180). -/
def column (s : PyWriter) (path : PyPath) : Option ColHist := s.view.bind fun t => t.at? path

/-- What the calls return (trajectory_writer.py:237-441). -/
inductive Reply where
  | done
  | item (key : Key)
  | waiting
  deriving DecidableEq, Repr

/-- A reply of the C++ writer (pybind.cc:880-977). -/
def Reply.of : TrajWriter.Reply → Reply
  | .item k => .item k
  | .waiting => .waiting
  | _ => .done

/-- What can happen. `flush` and `end_episode` wait between their two parts; `timedOut`: the timeout of the call has passed. `createItem` is
given the flattened trajectory. `worker` and `confirm` are steps of the threads of the C++ writer
(trajectory_writer.py:193-441). -/
inductive Event where
  | append (data : PTree (Option Tensor)) (partialStep : Bool)
  | configure (path : PyPath) (keep : Int) (maxLen : Option Int)
  | createItem (table : String) (priority : Pri) (cols : List TrajCol)
  | flushBegin (k : Int)
  | flushEnd (k : Int) (timedOut : Bool)
  | episodeBegin
  | episodeEnd (clear : Bool) (timedOut : Bool)
  | close
  | worker (inp : TrajWriter.Input)
  | confirm (keys : List Key)

/-- A call that is handed on to the C++ writer (pybind.cc:880-977). -/
def pass (s : PyWriter) (e : TrajWriter.Event) : PyWriter × PyRes Reply :=
  ((s.cpp e).1, match lift (s.cpp e).2 with
    | .ok r => .ok (.of r)
    | .raised x => .raised x
    | .died => .died)

/-- trajectory_writer.cc:609-614: a call that waits and whose timeout has passed. -/
def expire (timedOut : Bool) : PyRes Reply → PyRes Reply
  | .ok .waiting => if timedOut then .raised (.status .deadlineExceeded) else .ok .waiting
  | r => r

/-- One event. `close` is 440-441, `createItem` 323-356, `flush` 358-407 and `end_episode` 409-438
(trajectory_writer.py:193-441). -/
def handle (s : PyWriter) : Event → PyWriter × PyRes Reply
  | .append data partialStep =>
    match s.append data partialStep with
    | (s, .ok ()) => (s, .ok .done)
    | (s, .raised e) => (s, .raised e)
    | (s, .died) => (s, .died)
  | .configure path keep maxLen =>
    match s.configure path keep maxLen with
    | (s, .ok ()) => (s, .ok .done)
    | (s, .raised e) => (s, .raised e)
    | (s, .died) => (s, .died)
  | .createItem table priority cols => s.pass (.createItem table priority cols)
  | .flushBegin k => if k < 0 then (s, .raised .valueError) else s.pass (.flushBegin k)
  | .flushEnd k timedOut =>
    match s.pass (.flushEnd k) with
    | (s, r) => (s, expire timedOut r)
  | .episodeBegin => s.pass .episodeBegin
  | .episodeEnd clear timedOut =>
    match s.pass (.episodeEnd clear) with
    | (s, .ok .done) => (if clear then { s with history := s.history.map ColHist.reset } else s, .ok .done)
    | (s, r) => (s, expire timedOut r)
  | .close => s.pass .close
  | .worker inp => s.pass (.worker inp)
  | .confirm keys => s.pass (.confirm keys)

/-- The state after some events (model only), trajectory_writer.py:193-441. -/
def run (s : PyWriter) (evs : List Event) : PyWriter := evs.foldl (fun s e => (s.handle e).1) s

end PyWriter

/-! ### Columns of a trajectory -/

/-- CPython `PySlice_AdjustIndices`: one end of a slice; `dflt` if it is missing (used by
trajectory_writer.py:557-568, 601-610). -/
def sliceEnd (n : Nat) (down : Bool) (dflt : Int) : Option Int → Int
  | none => dflt
  | some i =>
    if i < 0 then
      if i + n < 0 then (if down then -1 else 0) else i + n
    else if n ≤ i then (if down then (n : Int) - 1 else n)
    else i

/-- CPython: the positions that the slice `start:stop:step` of a sequence of length `n` has; `step` is
not 0 (used by trajectory_writer.py:557-568, 601-610). -/
def slicePositions (n : Nat) (start stop : Option Int) (step : Int) : List Nat :=
  if 0 < step then
    let a := sliceEnd n false 0 start
    let b := sliceEnd n false n stop
    if a < b then (List.range ((b - a - 1) / step + 1).toNat).map fun (k : Nat) => (a + k * step).toNat else []
  else
    let a := sliceEnd n true ((n : Int) - 1) start
    let b := sliceEnd n true (-1) stop
    if b < a then (List.range ((a - b - 1) / (-step) + 1).toNat).map fun (k : Nat) => (a + k * step).toNat else []

namespace ColHist

/-- trajectory_writer.py:578-593: the constructor of `TrajectoryColumn`. -/
def toColumn (refs : List (Option Ref)) (squeeze : Bool) : PyRes TrajCol :=
  if squeeze ∧ refs.length ≠ 1 then .raised .valueError
  else if none ∈ refs then .raised .valueError
  else .ok ⟨refs.filterMap id, squeeze⟩

/-- trajectory_writer.py:557-562 `__getitem__` with an integer. -/
def item (c : ColHist) (i : Int) : PyRes TrajCol :=
  let j := if i < 0 then i + c.refs.length else i
  if j < 0 then .raised .indexError
  else
    match c.refs[j.toNat]? with
    | none => .raised .indexError
    | some r => toColumn [r] true

/-- trajectory_writer.py:563-565 `__getitem__` with a slice; a step of 0 is a `ValueError` of Python. -/
def slice (c : ColHist) (start stop step : Option Int) : PyRes TrajCol :=
  if step = some 0 then .raised .valueError
  else toColumn ((slicePositions c.refs.length start stop (step.getD 1)).filterMap fun i => c.refs[i]?) false

end ColHist
end Verif
