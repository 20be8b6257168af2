import Verif.Model.Timeout
/-
Model of how errors get from the server to the user: grpc_util.h:41-62, tf_util.h:26-45, errors.cc:26-37, the exceptions of pybind.cc:59-84, and the calls of the Python
clients that have timeouts (trajectory_writer.py:358-438, client.py:479-503, pybind.cc:702-720, 950-977). The codes of absl, gRPC and TensorFlow have the same numbers, 0 to 16.
-/
namespace Verif

/-- `absl::Status`, `grpc::Status` and `tensorflow::Status`: a code and a message (grpc_util.h:30-58,
tf_util.h:26-44). -/
structure Status where
  code : Fin 17
  message : String
  deriving DecidableEq, Repr

namespace Status

/-- A status without an error has no message (grpc_util.h:41-46, tf_util.h:26-44). -/
def ok : Status := ⟨0, ""⟩

/-- grpc_util.h:41-46 `ToGrpcStatus`. -/
def toGrpc (s : Status) : Status := if s.code = 0 then ok else s

/-- grpc_util.h:36-39 `IsStreamRemovedError`; 2 is `UNKNOWN`. -/
def isStreamRemoved (s : Status) : Bool := decide (s.code ≠ 0 ∧ s.code = 2 ∧ s.message = "Stream removed")

/-- grpc_util.h:48-58 `FromGrpcStatus`; 14 is `UNAVAILABLE`. -/
def fromGrpc (s : Status) : Status :=
  if s.code = 0 then ok
  else if s.isStreamRemoved then ⟨14, s.message⟩
  else s

/-- tf_util.h:36-44 `ToTensorflowStatus`. -/
def toTensorflow (s : Status) : Status := if s.code = 0 then ok else s

/-- tf_util.h:26-33 `FromTensorflowStatus`. -/
def fromTensorflow (s : Status) : Status := if s.code = 0 then ok else s

/-- Is the one list a part of the other? (model only, for `absl::StrContains` in errors.cc:34-37). -/
def infixOf (part : List Char) : List Char → Bool
  | [] => part.isEmpty
  | c :: cs => part.isPrefixOf (c :: cs) || infixOf part cs

/-- `absl::StrContains` and the `in` of Python (errors.cc:34-37, trajectory_writer.py:400-407,
client.py:495-502). -/
def contains (text part : String) : Bool := infixOf part.toList text.toList

/-- errors.cc:26-27 -/
def limiterMessage : String := "Rate Limiter: Timeout exceeded before the right to insert was acquired."

/-- errors.cc:30-32 `RateLimiterTimeout`; 4 is `DEADLINE_EXCEEDED`. -/
def rateLimiterTimeout : Status := ⟨4, limiterMessage⟩

/-- errors.cc:34-37 `IsRateLimiterTimeout`. -/
def isRateLimiterTimeout (s : Status) : Bool := decide (s.code = 4) && contains s.message limiterMessage

/-- What a sampler in another process sees of a status of the table (reverb_service_impl.cc and sampler.cc:229), and from there the iterator of a dataset
(trajectory_dataset.cc:288-307): the status it returns, and whether it reports the end of the sequence. -/
def iterator (timeout : Duration) (table : Status) : Status × Bool :=
  let s := toTensorflow (fromGrpc (toGrpc table))
  if s.code = 0 then (s, false)
  else if timeout ≠ none ∧ isRateLimiterTimeout (fromTensorflow s) = true then (ok, true)
  else (s, false)

end Status

/-- The exceptions of Python; `NotImplementedError` is a `RuntimeError` (pybind.cc:59-84). -/
inductive PyError where
  | valueError
  | indexError
  | notImplementedError
  | runtimeError
  /-- errors.py `DeadlineExceededError` -/
  | deadlineExceeded
  deriving DecidableEq, Repr

namespace PyError

/-- `except RuntimeError` (trajectory_writer.py:400-407, 427-434, client.py:495-502). -/
def isRuntimeError : PyError → Bool
  | .notImplementedError => true
  | .runtimeError => true
  | _ => false

/-- pybind.cc:59-84 `MaybeRaiseFromStatus`: 3 is `INVALID_ARGUMENT`, 8 `RESOURCE_EXHAUSTED`, 12 `UNIMPLEMENTED`. -/
def ofStatus (s : Status) : Option (PyError × String) :=
  if s.code = 0 then none
  else if s.code = 3 then some (.valueError, s.message)
  else if s.code = 8 then some (.indexError, s.message)
  else if s.code = 12 then some (.notImplementedError, s.message)
  else some (.runtimeError, s.message)

/-- The `try` statements of trajectory_writer.py:400-407, 427-434 and client.py:495-502: the error that leaves them. `given` is `timeout is not None`. -/
def translate (part : String) (given : Bool) : Option (PyError × String) → Option (PyError × String)
  | none => none
  | some (e, m) => if e.isRuntimeError && Status.contains m part && given then some (.deadlineExceeded, "") else some (e, m)

/-- trajectory_writer.py:358-407 `flush` and pybind.cc:950-963, given what `Flush` of C++ returns for a timeout. The check of `block_until_num_items` is left out. -/
def flush (timeoutMs : Option Int) (call : Duration → Status) : Option (PyError × String) :=
  let ms := timeoutMs.getD (-1)
  translate "Timeout exceeded" true (ofStatus (call (if 0 < ms then some (millis ms) else none)))

/-- trajectory_writer.py:409-434 `end_episode` and pybind.cc:964-977. -/
def endEpisode (timeoutMs : Option Int) (call : Duration → Status) : Option (PyError × String) :=
  translate "Timeout exceeded" timeoutMs.isSome (ofStatus (call (timeoutMs.map millis)))

/-- client.py:479-503 `server_info` and pybind.cc:702-720; in seconds. -/
def serverInfo (timeout : Option Int) (call : Duration → Status) : Option (PyError × String) :=
  let sec := timeout.getD 0
  translate "Deadline Exceeded" timeout.isSome (ofStatus (call (if 0 < sec then some (millis (1000 * sec)) else none)))

end PyError
end Verif
