import Verif.Basic
/-
The files of reverb/cc/platform/tfrecord_checkpointer.cc: `Save`, `Load`, `LoadLatest`, `LoadFallbackCheckpoint`, and
the start of the server in reverb/cc/reverb_service_impl.cc. What the tables and chunks in a checkpoint mean is in
`Model/Checkpoint.lean`; here a record is a number.
-/
namespace Verif.Ckpt

/-- The three files of a checkpoint (tfrecord_checkpointer.cc:59-61). -/
inductive FileName where
  | tables | chunks | done
  deriving DecidableEq, Repr

/-- A record file; until the writer is closed its contents are not settled
(tfrecord_checkpointer.cc:63-82; the file system and `RecordWriter` belong to TensorFlow). -/
structure File where
  records : List Nat
  closed : Bool
  deriving DecidableEq, Repr

/-- A directory in the root directory (tfrecord_checkpointer.cc:170-203). -/
structure Dir where
  tables : Option File
  chunks : Option File
  done : Bool
  deriving DecidableEq, Repr

/-- The root directory. The names are numbers in the lexicographic order of the real names (`root_dir_`,
tfrecord_checkpointer.cc:144-149; the names are made in 170-171). -/
abbrev FS := AMap Nat Dir

/-- The operations on the file system, each atomic (calls of `tensorflow::Env` and `RecordWriter` in
tfrecord_checkpointer.cc:70-104 and 172-218). -/
inductive FsOp where
  | mkdir (n : Nat)
  | create (n : Nat) (f : FileName)
  | append (n : Nat) (f : FileName) (r : Nat)
  | close (n : Nat) (f : FileName)
  | remove (n : Nat) (f : FileName)
  | rmdir (n : Nat)
  deriving DecidableEq, Repr

/-- The effect on a directory (`NewWritableFile`, tfrecord_checkpointer.cc:74 and 101). -/
def Dir.create (d : Dir) : FileName → Dir
  | .tables => { d with tables := some ⟨[], false⟩ }
  | .chunks => { d with chunks := some ⟨[], false⟩ }
  | .done => { d with done := true }

/-- `RecordWriter::WriteRecord` (tfrecord_checkpointer.cc:184 and 196). -/
def Dir.append (d : Dir) (r : Nat) : FileName → Dir
  | .tables => { d with tables := d.tables.map fun f => { f with records := f.records ++ [r] } }
  | .chunks => { d with chunks := d.chunks.map fun f => { f with records := f.records ++ [r] } }
  | .done => d

/-- `RecordWriter::Close` (tfrecord_checkpointer.cc:187 and 198). -/
def Dir.close (d : Dir) : FileName → Dir
  | .tables => { d with tables := d.tables.map fun f => { f with closed := true } }
  | .chunks => { d with chunks := d.chunks.map fun f => { f with closed := true } }
  | .done => d

/-- Deletion of a file (part of `DeleteRecursively`, tfrecord_checkpointer.cc:217). -/
def Dir.remove (d : Dir) : FileName → Dir
  | .tables => { d with tables := none }
  | .chunks => { d with chunks := none }
  | .done => { d with done := false }

/-- The directory `n`, changed by `f` if it exists (model only, for the operations of
tfrecord_checkpointer.cc:172-218). -/
def onDir (fs : FS) (n : Nat) (f : Dir → Dir) : FS :=
  match fs.get? n with
  | none => fs
  | some d => fs.insert n (f d)

/-- The effect of an operation (tfrecord_checkpointer.cc:172-218). -/
def FsOp.apply (fs : FS) : FsOp → FS
  | .mkdir n => if fs.contains n then fs else fs.insert n ⟨none, none, false⟩
  | .create n f => onDir fs n (·.create f)
  | .append n f r => onDir fs n (·.append r f)
  | .close n f => onDir fs n (·.close f)
  | .remove n f => onDir fs n (·.remove f)
  | .rmdir n => fs.erase n

/-- Several operations (model only, for the operations of tfrecord_checkpointer.cc:172-218). -/
def exec (fs : FS) (ops : List FsOp) : FS := ops.foldl FsOp.apply fs

/-- tfrecord_checkpointer.cc:171-203 and `WriteDone` (98-104): writing the checkpoint. -/
def writeOps (n : Nat) (tables chunks : List Nat) : List FsOp :=
  [.mkdir n, .create n .tables] ++ tables.map (.append n .tables) ++ [.close n .tables, .create n .chunks] ++
    chunks.map (.append n .chunks) ++ [.close n .chunks, .create n .done]

/-- Insertion into a descending list (`std::sort`, tfrecord_checkpointer.cc:210 and 385). -/
def insertDesc (x : Nat) : List Nat → List Nat
  | [] => [x]
  | y :: l => if y ≤ x then x :: y :: l else y :: insertDesc x l

/-- tfrecord_checkpointer.cc:206-211, 382-386: the names in `root_dir_`, from the last to the first. (The sorting algorithm does not
matter as the names are distinct.) -/
def namesDesc (fs : FS) : List Nat := fs.keys.foldr insertDesc []

/-- tfrecord_checkpointer.cc:212-220: deletion of all but the last `keep` entries. `DeleteRecursively` removes the files of a
directory one by one, in the order given by `order`, and then the directory. -/
def deleteOps (fs : FS) (keep : Nat) (order : Nat → List FileName) : List FsOp :=
  ((namesDesc fs).drop keep).flatMap fun v => (order v).map (.remove v) ++ [.rmdir v]

/-- A call of `Save` (tfrecord_checkpointer.cc:159-224), of which the first `steps` operations are executed before the
process crashes or an error ends the call. Setting a group, which is refused, is not modelled. -/
structure Attempt where
  /-- the formatted current time -/
  name : Nat
  tables : List Nat
  chunks : List Nat
  keep : Nat
  order : Nat → List FileName
  steps : Nat

/-- All operations of the call. `keep_latest <= 0` is refused (161-164)
(tfrecord_checkpointer.cc:159-224). -/
def Attempt.ops (a : Attempt) (fs : FS) : List FsOp :=
  if a.keep = 0 then []
  else
    let w := writeOps a.name a.tables a.chunks
    w ++ deleteOps (exec fs w) a.keep a.order

/-- tfrecord_checkpointer.cc:106-110 `HasDone`. -/
def hasDone (fs : FS) (n : Nat) : Bool :=
  match fs.get? n with
  | none => false
  | some d => d.done

/-- tfrecord_checkpointer.cc:226-376 `Load`: the table records and chunk records read. A missing file gives the status
`NotFound` of `NewRandomAccessFile`. -/
def load (fs : FS) (n : Nat) : Res (List Nat × List Nat) :=
  match fs.get? n with
  | none => .err .invalidArgument
  | some d =>
    if !d.done then .err .invalidArgument
    else
      match d.chunks, d.tables with
      | some c, some t => .ok (t.records, c.records)
      | _, _ => .err .notFound

/-- tfrecord_checkpointer.cc:378-395 `LoadLatest`. -/
def loadLatest (fs : FS) : Res (List Nat × List Nat) :=
  match (namesDesc fs).find? (hasDone fs) with
  | some n => load fs n
  | none => .err .notFound

/-- The state in which the server starts (reverb_service_impl.cc:84-118). -/
inductive Start where
  | root (t c : List Nat)
  | fallback (t c : List Nat)
  | empty
  | failed (c : Code)
  deriving DecidableEq, Repr

/-- tfrecord_checkpointer.cc:397-407 `LoadFallbackCheckpoint`; the path is an entry of another directory, `none` if no path is
given. -/
def loadFallback (fb : Option (FS × Nat)) : Res (List Nat × List Nat) :=
  match fb with
  | none => .err .notFound
  | some (fs, n) => if hasDone fs n then load fs n else .err .notFound

/-- reverb_service_impl.cc:84-109 `Initialize`, also reverb_service_async_impl.cc:96-120. -/
def startServer (root : FS) (fb : Option (FS × Nat)) : Start :=
  match loadLatest root with
  | .ok (t, c) => .root t c
  | .err .notFound =>
    match loadFallback fb with
    | .ok (t, c) => .fallback t c
    | .err .notFound => .empty
    | .err c => .failed c
    | .died => .failed .internal
  | .err c => .failed c
  | .died => .failed .internal

end Verif.Ckpt
