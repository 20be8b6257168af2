/-
The methods that pybind.cc:498-979 gives to Python, as far as the global interpreter lock (GIL) of Python is concerned. The rules of the GIL
are those of Python and pybind11: Python functions may only be called by the thread that has the lock.
-/
namespace Verif.Gil

/-- What a method does, one after the other (pybind.cc:498-979). -/
inductive Op where
  /-- Python functions: conversions of arguments and results, `py::bytes` (e.g. 574) -/
  | py
  /-- Python functions, unless the last call has failed (842-849) -/
  | pyIfOk
  /-- a call of C++ code; `waits`: for a server, another thread or a file -/
  | call (waits : Bool)
  /-- `MaybeRaiseFromStatus` (59-84) with the status of the last call -/
  | raise
  /-- begin of a `py::gil_scoped_release` -/
  | release
  /-- its end, or Python code that waits for the lock -/
  | acquire
  deriving Repr, DecidableEq

/-- A method (pybind.cc:498-979). -/
structure Method where
  name : String
  /-- `py::call_guard<py::gil_scoped_release>`: the lock is released during the function, not during conversions -/
  guard : Bool
  body : List Op
  /-- the result is an `absl::Status`, whose conversion may raise (472-481) -/
  status : Bool
  deriving Repr, DecidableEq

/-- A call of a method from Python code (pybind11, for pybind.cc:498-979): the thread gets the lock, converts the arguments, runs the function and
converts the result; after that other threads may get the lock. -/
def Method.ops (m : Method) : List Op :=
  [.acquire, .py] ++ (if m.guard then [.release] else []) ++ m.body ++ (if m.guard then [.acquire] else []) ++
    (if m.status then [.raise] else []) ++ [.py, .release]

/-- A function without guard that does not wait (pybind.cc:504, 508, 512, 516, 520, 528, 565, 633, 772, 777, 862-879). -/
def quick (name : String) : Method := ⟨name, false, [.call false], false⟩

/-- A function with a guard (e.g. pybind.cc:499-500). -/
def guarded (name : String) : Method := ⟨name, true, [.call true], false⟩

/-- A function with a guard that returns a status (e.g. pybind.cc:581). -/
def guardedStatus (name : String) : Method := ⟨name, true, [.call true], true⟩

/-- A function that releases the lock around a call and raises afterwards (e.g. pybind.cc:613-629). -/
def released (name : String) : Method := ⟨name, false, [.release, .call true, .acquire, .raise], false⟩

/-- All methods (pybind.cc:498-979) and the destructors of objects with threads, which Python runs with the lock when an object is no longer
used (sampler.cc:505, table.cc:158-173, platform/default/server.cc:76-79; writer.cc:77-79 and trajectory_writer.cc:172-185 after `Close`, which
the Python classes call first: client.py:54-58, trajectory_writer.py:143-144). The two cases of `NewTrajectoryWriter` (673-682) are two methods. -/
def methods : List Method := [
  guarded "ItemSelector.__repr__",                                                       -- 499-500
  quick "PrioritizedSelector", quick "FifoSelector", quick "LifoSelector",               -- 504-512
  quick "UniformSelector", quick "HeapSelector",                                         -- 516-520
  guarded "TableExtension.__repr__",                                                     -- 524-525
  quick "RateLimiter", guarded "RateLimiter.__repr__",                                   -- 528-532
  ⟨"Table", false, [.call false, .raise, .call false], false⟩,                           -- 535-564
  quick "Table.name", guarded "Table.can_sample", guarded "Table.can_insert",            -- 565-569
  ⟨"Table.info", true, [.call true, .py], false⟩,                                        -- 570-576
  guarded "Table.__repr__",                                                              -- 577-578
  guardedStatus "Writer.Append", guardedStatus "Writer.AppendSequence",                  -- 581-583
  guardedStatus "Writer.CreateItem",                                                     -- 584-585
  ⟨"Writer.Flush", true, [.call true, .raise], false⟩,                                   -- 586-589
  guardedStatus "Writer.Close", guarded "Writer.__repr__",                               -- 590-592
  released "Sampler.GetNextTimestep", released "Sampler.GetNextTrajectory",                  -- 595-629
  guarded "Sampler.Close",                                                               -- 630
  quick "Client",                                                                        -- 633
  ⟨"Client.NewWriter", true, [.call true, .raise], false⟩,                               -- 634-646
  ⟨"Client.NewSampler", true, [.call true, .raise], false⟩,                              -- 647-659
  released "Client.NewTrajectoryWriter with timeout",                                      -- 660-686
  ⟨"Client.NewTrajectoryWriter without timeout", false, [.call false, .raise], false⟩,   -- 680-686
  guardedStatus "Client.MutatePriorities", guardedStatus "Client.Reset",                 -- 687-701
  ⟨"Client.ServerInfo", false, [.release, .call true, .acquire, .raise, .py], false⟩,    -- 702-730
  released "Client.Checkpoint",                                                            -- 731-740
  guarded "Checkpointer.__repr__", guarded "create_default_checkpointer",                -- 743-754
  ⟨"Server", false, [.call true, .raise], false⟩,                                        -- 757-767
  guarded "Server.Stop", guarded "Server.Wait", guarded "Server.InProcessClient",        -- 768-771
  quick "Server.uses_async_service", guarded "Server.__repr__",                          -- 772-774
  quick "WeakCellRef.expired",                                                           -- 777
  ⟨"WeakCellRef.numpy", false, [.call false, .raise, .release, .call true, .acquire, .raise], false⟩,          -- 778-797
  ⟨"WeakCellRef.shape", false, [.call false, .raise, .release, .call true, .acquire, .raise], false⟩,          -- 798-826
  ⟨"WeakCellRef.dtype", false, [.call false, .raise, .release, .call true, .pyIfOk, .acquire, .raise], false⟩, -- 827-854
  quick "ConstantChunkerOptions", quick "ConstantChunkerOptions.__eq__",                 -- 862-868
  quick "AutoTunedChunkerOptions", quick "AutoTunedChunkerOptions.__eq__",               -- 873-878
  ⟨"TrajectoryWriter.Append", false, [.call false, .raise], false⟩,                      -- 882-901
  ⟨"TrajectoryWriter.AppendPartial", false, [.call false, .raise], false⟩,               -- 902-921
  ⟨"TrajectoryWriter.CreateItem", false, [.call false, .raise, .call false, .raise], false⟩, -- 922-949
  released "TrajectoryWriter.Flush", released "TrajectoryWriter.EndEpisode",                 -- 950-974
  guarded "TrajectoryWriter.Close", guardedStatus "TrajectoryWriter.ConfigureChunker",   -- 975-978
  ⟨"del Sampler", false, [.call true], false⟩, ⟨"del Table", false, [.call true], false⟩, -- sampler.cc:505, 641; table.cc:158-173
  ⟨"del Server", false, [.call true], false⟩,                                            -- platform/default/server.cc:76-79
  quick "del Writer", quick "del TrajectoryWriter"]                                      -- writer.cc:77-79, trajectory_writer.cc:172-185

/-- A Python process with any number of threads that call methods (for pybind.cc:498-979). -/
structure W where
  /-- the thread that has the lock -/
  gil : Option Nat
  /-- what each thread has still to do in its call -/
  todo : Nat → List Op
  /-- the last C++ call of each thread has returned an error -/
  failed : Nat → Bool
  /-- Python was used without the lock: undefined behaviour -/
  ub : Bool

/-- At first no thread is in a method (for pybind.cc:498-979). -/
def init : W := ⟨none, fun _ => [], fun _ => false, false⟩

/-- What can happen (for pybind.cc:498-979). -/
inductive Act where
  /-- thread `i` calls a method -/
  | start (i : Nat) (m : Method)
  /-- thread `i` makes its next step; `ok`: what a C++ call returns -/
  | run (i : Nat) (ok : Bool)

/-- The value of a thread changes (for pybind.cc:498-979). -/
def set {α : Type} (f : Nat → α) (i : Nat) (x : α) : Nat → α := fun j => if j = i then x else f j

/-- One step (Python and pybind11, for pybind.cc:498-979); `none`: not possible now. An exception that is raised (59-84) ends the call; then the
thread has the lock, because `raise` needs it. -/
def step (w : W) : Act → Option W
  | .start i m => if w.ub = false ∧ w.todo i = [] then some { w with todo := set w.todo i m.ops, failed := set w.failed i false } else none
  | .run i ok =>
    if w.ub then none else
    match w.todo i with
    | [] => none
    | .py :: r => some { w with todo := set w.todo i r, ub := w.gil != some i }
    | .pyIfOk :: r => some { w with todo := set w.todo i r, ub := !w.failed i && w.gil != some i }
    | .call _ :: r => some { w with todo := set w.todo i r, failed := set w.failed i (!ok) }
    | .raise :: r => if w.failed i then some { w with todo := set w.todo i [.release], ub := w.gil != some i }
      else some { w with todo := set w.todo i r }
    | .release :: r => if w.gil = some i then some { w with todo := set w.todo i r, gil := none } else some { w with ub := true }
    | .acquire :: r => if w.gil = none then some { w with todo := set w.todo i r, gil := some i } else none

/-- Several steps (for pybind.cc:498-979). -/
def run (w : W) : List Act → Option W
  | [] => some w
  | a :: as => (step w a).bind fun w' => run w' as

end Verif.Gil
