import Verif.Model.Service
import Verif.Model.Writer
/-
Model of the kernels of cc/ops/client.cc. `LookupResource` and the reading of the inputs are left out.
-/
namespace Verif

/-- What happens to one attempt of `Client::MutatePriorities` (client.cc:136-152): the request gets to the server and the answer comes back, or
the client sees an error of the connection, and the request got to the server or not. -/
inductive Try where
  | answered
  | unanswered (c : Code)
  | lost (c : Code)
  deriving DecidableEq

/-- The server gets the request (ops/client.cc:210-218; model only). -/
def Try.reaches : Try → Bool
  | .lost _ => false
  | _ => true

/-- A tensor of rank 1 or other with its values (`tensorflow::Tensor` as read in ops/client.cc:192-208
and 240-267). -/
structure Vec (α : Type) where
  shape : List Nat
  values : List α

/-- ops/client.cc:218: the status for which the loop goes on. -/
def retries (s : Option Code) : Bool := decide (s = some .unavailable ∨ s = some .deadlineExceeded)

/-- ops/client.cc:215-218: the loop. Each attempt comes with what has happened on the server before it. `none` if this is not possible; a
server that dies does not answer. -/
def updateRounds (w : Wire) (table : String) (us : List (Key × Pri)) : List (List Service.Event × Try) → Service → Option (Service × Ret (Option Code))
  | [], v => some (v, .blocked)
  | (pre, a) :: rest, v =>
    match v.run w pre with
    | none => none
    | some v1 =>
      match a with
      | .lost c => if retries (some c) then updateRounds w table us rest v1 else some (v1, .ret (some c))
      | .unanswered c =>
        match v1.step w (.unary (.mutate table us [])) with
        | none => none
        | some v2 => if retries (some c) then updateRounds w table us rest v2 else some (v2, .ret (some c))
      | .answered =>
        match v1.step w (.unary (.mutate table us [])) with
        | none => none
        | some v2 =>
          let s := (v1.unary (.mutate table us [])).2
          if v2.dead then none
          else if retries s then updateRounds w table us rest v2 else some (v2, .ret s)

/-- ops/client.cc:180-220 `UpdatePrioritiesOp::Compute`. -/
def updateOp (w : Wire) (table : String) (keys : Vec Key) (priorities : Vec Pri) (rounds : List (List Service.Event × Try)) (v : Service) :
    Option (Service × Ret (Option Code)) :=
  if keys.shape.length ≠ 1 then some (v, .ret (some .invalidArgument))
  else if keys.shape ≠ priorities.shape then some (v, .ret (some .invalidArgument))
  else updateRounds w table (keys.values.zip priorities.values) rounds v

/-- Calls of a writer, one after the other until one does not return OK. The answers that each call gets
are given one after the other (ops/client.cc:259-269, client.py:259-263). -/
def callEach : List Writer.Call → Writer → List (List Answer) → Writer × Ret (Option Code) × List (List Answer)
  | [], w, as => (w, .ret none, as)
  | c :: cs, w, as =>
    match w.call c (as.headD []) with
    | (w1, .ret none, _) => callEach cs w1 as.tail
    | (w1, r, _) => (w1, r, as.tail)

/-- ops/client.cc:256-269 and client.py:259-263: the step and one item of one step for each table. -/
def insertCalls (data : List Tensor) (entries : List (String × Pri)) : List Writer.Call :=
  .append data :: entries.map fun e => .createItem e.1 1 e.2

/-- ops/client.cc:230-270 `InsertOp::Compute`, with the writer made by `NewWriter` (client.cc:106-126), which has no limit of items in flight. -/
def insertOp (w : Writer) (data : List Tensor) (tables : Vec String) (priorities : Vec Pri) (as : List (List Answer)) : Writer × Ret (Option Code) :=
  if tables.shape.length ≠ 1 ∨ priorities.shape.length ≠ 1 then (w, .ret (some .invalidArgument))
  else if tables.shape ≠ priorities.shape then (w, .ret (some .invalidArgument))
  else
    match callEach (insertCalls data (tables.values.zip priorities.values) ++ [.close true]) w as with
    | (w1, r, _) => (w1, r)

/-- client.py:240-263 `Client.insert`, with the writer made in 259. The writer is closed in any case (client.py:51-52); an error of `Close` replaces that of
the calls before. `ValueError` is `invalidArgument` here. -/
def clientInsert (w : Writer) (data : List Tensor) (entries : List (String × Pri)) (as : List (List Answer)) : Writer × Ret (Option Code) :=
  if entries = [] then (w, .ret (some .invalidArgument))
  else
    match callEach (insertCalls data entries) w as with
    | (w1, .ret r, as1) =>
      match w1.close true (as1.headD []) with
      | (w2, .ret none, _) => (w2, .ret r)
      | (w2, .ret (some e), _) => (w2, .ret (some e))
      | (w2, .blocked, _) => (w2, .blocked)
      | (w2, .died, _) => (w2, .died)
    | (w1, r, _) => (w1, r)

end Verif
