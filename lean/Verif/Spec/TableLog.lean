import Verif.Model.Table
/-
What an observer concludes about a table from the notifications it has received, oldest first.
-/
namespace Verif.Spec

/-- The items an observer believes to be in the table. A notification that makes no sense (insertion of
a present key, a change or deletion of an item that is not present in exactly the announced form) gives
`none`. -/
def observe : Option (List Item) → ExtEvent → Option (List Item)
  | none, _ => none
  | some l, .insert i => if l.any (fun j => j.key = i.key) then none else some (l ++ [i])
  | some l, .update i =>
    if l.any (fun j => { j with priority := i.priority } = i) then
      some (l.map fun j => if j.key = i.key then i else j)
    else none
  | some l, .sample i =>
    if l.any (fun j => { j with timesSampled := j.timesSampled + 1 } = i) then
      some (l.map fun j => if j.key = i.key then i else j)
    else none
  | some l, .delete i => if i ∈ l then some (l.filter fun j => j.key ≠ i.key) else none
  | some _, .reset => some []

/-- The items an observer believes to be in the table after all notifications. -/
def live (log : List ExtEvent) : Option (List Item) := log.foldl observe (some [])

/-- The distinct episodes that occur in a list of items. -/
def episodes (l : List Item) : List Key := (l.flatMap fun i => i.chunks.map ChunkRef.episode).eraseDups

/-- Items present and number of episodes that have completely left the table since the last reset. -/
def observeEnded : List Item × Int → ExtEvent → List Item × Int
  | (l, n), e =>
    let l' := (observe (some l) e).getD []
    match e with
    | .delete _ => (l', n + ((episodes l).length - (episodes l').length))
    | .reset => (l', 0)
    | _ => (l', n)

/-- Number of episodes whose last item has left the table since the last reset. -/
def endedEpisodes (log : List ExtEvent) : Int := (log.foldl observeEnded ([], 0)).2

/-- The notifications since the last reset. -/
def sinceReset (log : List ExtEvent) : List ExtEvent :=
  log.foldl (fun acc e => match e with | .reset => [] | e => acc ++ [e]) []

def isInsert : ExtEvent → Bool | .insert _ => true | _ => false
def isDelete : ExtEvent → Bool | .delete _ => true | _ => false
def isSample : ExtEvent → Bool | .sample _ => true | _ => false

/-- Number of items inserted, removed and sampled since the last reset. -/
def inserted (log : List ExtEvent) : Nat := (sinceReset log).countP isInsert
def deleted (log : List ExtEvent) : Nat := (sinceReset log).countP isDelete
def sampled (log : List ExtEvent) : Nat := (sinceReset log).countP isSample

/-- How often the item with key `k` has been sampled since it entered the table. -/
def samplesOf (k : Key) (log : List ExtEvent) : Nat :=
  log.foldl (fun n e => match e with
    | .insert i => if i.key = k then 0 else n
    | .sample i => if i.key = k then n + 1 else n
    | .delete i => if i.key = k then 0 else n
    | .update _ => n
    | .reset => 0) 0

/-- Number of items (counted once per stay in the table) that have been sampled since the last reset.
`seen` are the keys of the present items that have been sampled. -/
def observeUnique : List Key × Int → ExtEvent → List Key × Int
  | (seen, n), .insert i => (seen.filter (· ≠ i.key), n)
  | (seen, n), .sample i => if i.key ∈ seen then (seen, n) else (i.key :: seen, n + 1)
  | (seen, n), .delete i => (seen.filter (· ≠ i.key), n)
  | s, .update _ => s
  | _, .reset => ([], 0)

/-- Number of items sampled at least once since the last reset. -/
def uniqueSamples (log : List ExtEvent) : Int := (log.foldl observeUnique ([], 0)).2

end Verif.Spec
