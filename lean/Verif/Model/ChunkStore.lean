import Verif.Basic
/-
reverb/cc/chunk_store.cc. Chunks are numbered in the order of their creation; callers hold shared pointers to them, the store
weak ones. The state also has the keys on their way from the deleter of the shared pointers to the cleaner thread.
-/
namespace Verif.ChunkStore

/-- A `ChunkStore::Chunk` (chunk_store.h:78-105); `data` stands for the proto. -/
structure Chunk where
  key : Key
  data : Nat
  /-- number of shared pointers -/
  refs : Nat
  deriving DecidableEq, Repr

/-- The store, its cleaner thread and the chunks ever created (chunk_store.h:107-150,
chunk_store.cc:67-94). -/
structure S where
  chunks : List Chunk
  /-- `data_`: weak pointers -/
  map : AMap Key Nat
  /-- last pointer gone, deleter (chunk_store.cc:88-91) has not yet called `Push` -/
  dying : List Key
  /-- `delete_keys_`. Its capacity is 10000000; waiting for room is not modelled. -/
  queue : List Key
  /-- keys popped by the cleaner and not yet erased -/
  popped : List Key

/-- chunk_store.cc:67-73. -/
def init : S := ⟨[], AMap.empty, [], [], []⟩

/-- The chunk still has an owner (whether `wp.lock()` gives a pointer, chunk_store.cc:85 and 114). -/
def S.alive (s : S) (id : Nat) : Prop := ∃ c, s.chunks[id]? = some c ∧ 0 < c.refs

instance (s : S) (id : Nat) : Decidable (s.alive id) :=
  match h : s.chunks[id]? with
  | none => .isFalse (by rintro ⟨c, h1, _⟩; simp [h] at h1)
  | some c => if h2 : 0 < c.refs then .isTrue ⟨c, h, h2⟩ else .isFalse (by rintro ⟨c', h1, h3⟩; simp [h] at h1; subst h1; exact h2 h3)

/-- One more shared pointer (the pointers returned in chunk_store.cc:93 and 103). -/
def S.addRef (s : S) (id : Nat) : S :=
  { s with chunks := s.chunks.modify id fun c => { c with refs := c.refs + 1 } }

/-- chunk_store.cc:112-115 `GetItem`: the chunk, if it can be locked. -/
def S.find (s : S) (k : Key) : Option Nat :=
  match s.map.get? k with
  | none => none
  | some id => if s.alive id then some id else none

/-- chunk_store.cc:82-94 `Insert`; returns the number of the chunk. -/
def insert (s : S) (k : Key) (data : Nat) : S × Nat :=
  match s.find k with
  | some id => (s.addRef id, id)
  | none => ({ s with
      chunks := s.chunks ++ [⟨k, data, 1⟩]
      map := s.map.insert k s.chunks.length }, s.chunks.length)

/-- chunk_store.cc:96-110 `Get`: the chunks found, and whether the status is OK. After a failure `chunks` holds those found so
far. -/
def get (s : S) : List Key → S × List Nat × Bool
  | [] => (s, [], true)
  | k :: ks =>
    match s.find k with
    | none => (s, [], false)
    | some id =>
      let r := get (s.addRef id) ks
      (r.1, id :: r.2.1, r.2.2)

/-- A shared pointer goes away; with the last one the chunk dies (the deleter of chunk_store.cc:88-91
runs when the last pointer goes). -/
def release (s : S) (id : Nat) : Option S :=
  match s.chunks[id]? with
  | none => none
  | some c =>
    if c.refs = 0 then none
    else
      let s1 := { s with chunks := s.chunks.modify id fun c => { c with refs := c.refs - 1 } }
      if c.refs = 1 then some { s1 with dying := s1.dying ++ [c.key] } else some s1

/-- What can happen (chunk_store.cc:82-130, and the copies of pointers by callers). -/
inductive Act where
  | insert (k : Key) (data : Nat)
  | get (ks : List Key)
  /-- a shared pointer is copied -/
  | copy (id : Nat)
  | release (id : Nat)
  /-- a deleter reaches `q->Push(chunk->key())` (89) -/
  | pushKey (i : Nat)
  /-- chunk_store.cc:120: `PopBatch` of `n` keys -/
  | cleanPop (n : Nat)
  /-- chunk_store.cc:124-127: they are erased -/
  | cleanErase
  deriving Repr

/-- What `Insert` and `Get` return (chunk_store.cc:82-110). -/
inductive Out where
  | none_
  | chunk (id : Nat)
  | chunks (ids : List Nat) (ok : Bool)
  deriving DecidableEq, Repr

/-- One step; `none` if it is not possible (model only: dispatches to the parts of chunk_store.cc:82-130
named in `Act`). -/
def step (s : S) : Act → Option (S × Out)
  | .insert k d =>
    let r := insert s k d
    some (r.1, .chunk r.2)
  | .get ks =>
    let r := get s ks
    some (r.1, .chunks r.2.1 r.2.2)
  | .copy id => if s.alive id then some (s.addRef id, .none_) else none
  | .release id => (release s id).map fun s' => (s', .none_)
  | .pushKey i =>
    match s.dying[i]? with
    | none => none
    | some k => some ({ s with
        dying := s.dying.eraseIdx i
        queue := s.queue ++ [k] }, .none_)
  | .cleanPop n =>
    if s.popped = [] ∧ n ≤ s.queue.length then some ({ s with
      queue := s.queue.drop n
      popped := s.queue.take n }, .none_)
    else none
  | .cleanErase => some ({ s with
      map := s.popped.foldl AMap.erase s.map
      popped := [] }, .none_)

/-- Any interleaving of the callers, the deleters and the cleaner (model only: chunk_store.cc:82-130,
every block that holds `mu_` being one step). -/
def run (s : S) : List Act → Option S
  | [] => some s
  | a :: as =>
    match step s a with
    | none => none
    | some r => run r.1 as

end Verif.ChunkStore
