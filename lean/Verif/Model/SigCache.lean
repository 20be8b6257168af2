import Verif.Model.Signature
/-
Model of the cache of signatures in a client: client.cc:60-108 (`MaybeUpdateServerInfoCache`), 310-359 (`GetServerInfo`, `ServerInfo`,
`LockedUpdateServerInfoCache`), and of the one in the Python client: client.py:479-517 and 568-577. The threads of a process share a client; the
server may be replaced by another one at the same address.
-/
namespace Verif
namespace SigCache

/-- client.h `ServerInfo`: `tables_state_id`, a random number of 128 bits that a server draws when it starts
(reverb_service_impl.cc:115-116), and the tables with their signatures. The rest of a `TableInfo` is left out. -/
structure Info where
  id : Nat
  tables : List (String × Option Sig)

/-- A call that waits for the server, or has its answer and is about to take `cached_table_mu_`. `refresh` tells `ServerInfo` from a call of
`MaybeUpdateServerInfoCache`, which is made by `NewWriter`, `NewTrajectoryWriter` and `NewSampler`
(client.cc:60-108, 310-359). -/
structure Call where
  refresh : Bool
  answer : Option Info

/-- What a call returns (client.cc:60-108, 330-344). -/
inductive Out where
  /-- the signatures for a new writer or sampler -/
  | signatures (r : Res Signatures)
  /-- the result of `ServerInfo` -/
  | info (r : Res Info)

/-- A client. `cache` is `tables_state_id_` with `cached_flat_signatures_`, `py` is `_signature_cache` (client.py), `asked` the number of
requests sent to the server, `log` what the calls have returned (client.h:143-187 and client.py:217-228).
-/
structure Client where
  server : Info
  cache : Option (Nat × Signatures)
  py : List (String × Option Sig)
  calls : AMap Nat Call
  asked : Nat
  log : List (Nat × Out)

/-- A new client of a server (client.cc:50-58 and client.py:217-228). -/
def Client.init (server : Info) : Client := ⟨server, none, [], .empty, 0, []⟩

/-- What can happen (client.cc:60-108, 310-359). -/
inductive Event where
  /-- the server is replaced by another one -/
  | replace (i : Info)
  /-- a writer or sampler is made in thread `t`; `atOnce` if the timeout is minus infinity -/
  | make (t : Nat) (atOnce : Bool)
  /-- `ServerInfo` is called in thread `t` -/
  | info (t : Nat)
  /-- the server answers the request of thread `t` -/
  | answer (t : Nat)
  /-- the request of thread `t` fails -/
  | fail (t : Nat) (e : Code)
  /-- thread `t` takes the mutex -/
  | store (t : Nat)

/-- client.cc:346-359 `LockedUpdateServerInfoCache`. -/
def update (cache : Option (Nat × Signatures)) (i : Info) : Res (Nat × Signatures) :=
  match cache with
  | some (id, s) =>
    if id ≠ i.id then
      match flatSignatures i.tables .empty with
      | .ok s' => .ok (i.id, s')
      | .err e => .err e
      | .died => .died
    else .ok (id, s)
  | none =>
    match flatSignatures i.tables .empty with
    | .ok s' => .ok (i.id, s')
    | .err e => .err e
    | .died => .died

/-- client.py:511-515: the cache is filled if it is empty. -/
def pyFill (py : List (String × Option Sig)) (i : Info) : List (String × Option Sig) := if py.isEmpty then i.tables else py

/-- client.py:572-577: the signature of a table, from a cache that has been filled; `none` is a `ValueError`. -/
def pySignature (py : List (String × Option Sig)) (table : String) : Option (Option Sig) := py.lookup table

/-- The end of a call (client.cc:104-107, 339-343). -/
def Client.finish (c : Client) (t : Nat) (o : Out) : Client := { c with calls := c.calls.erase t, log := c.log ++ [(t, o)] }

/-- One step; `none` if it is not possible. The cache of Python is filled in the step in which `ServerInfo` succeeds (client.py:496-515). -/
def Client.step (c : Client) : Event → Option Client
  | .replace i => some { c with server := i }
  | .make t atOnce =>
    match c.calls.get? t with
    | some _ => none
    | none =>
      match c.cache with
      -- client.cc:66-73
      | some (_, s) => some { c with log := c.log ++ [(t, .signatures (.ok s))] }
      | none =>
        -- client.cc:75-81
        if atOnce then some { c with log := c.log ++ [(t, .signatures (.ok .empty))] }
        -- client.cc:101-102
        else some { c with calls := c.calls.insert t ⟨false, none⟩, asked := c.asked + 1 }
  | .info t =>
    match c.calls.get? t with
    | some _ => none
    | none => some { c with calls := c.calls.insert t ⟨true, none⟩, asked := c.asked + 1 }
  | .answer t =>
    match c.calls.get? t with
    | some ⟨r, none⟩ => some { c with calls := c.calls.insert t ⟨r, some c.server⟩ }
    | _ => none
  | .fail t e =>
    match c.calls.get? t with
    | some ⟨r, none⟩ => some (c.finish t (if r then .info (.err e) else .signatures (.err e)))
    | _ => none
  | .store t =>
    match c.calls.get? t with
    | some ⟨r, some i⟩ =>
      match update c.cache i with
      | .ok (id, s) =>
        -- client.cc:104-107, 339-343
        if r then some ({ c with cache := some (id, s), py := pyFill c.py i }.finish t (.info (.ok i)))
        else some ({ c with cache := some (id, s) }.finish t (.signatures (.ok s)))
      | .err e => some (c.finish t (if r then .info (.err e) else .signatures (.err e)))
      | .died => some (c.finish t (if r then .info .died else .signatures .died))
    | _ => none

/-- A sequence of steps (model only), client.cc:60-108, 310-359. -/
def Client.run (c : Client) : List Event → Option Client
  | [] => some c
  | e :: es =>
    match c.step e with
    | none => none
    | some c' => c'.run es

end SigCache
end Verif
