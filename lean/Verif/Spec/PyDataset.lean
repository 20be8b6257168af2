import Verif.Model.PyDataset
import Verif.Spec.OutputSpec
import Verif.Spec.Dataset
/-
Words for C103: where the leaves of a nested structure of Python are, which arguments a dataset may have, and what its elements look like.
-/
namespace Verif

/-- The path `p` leads from the first structure to the second one. -/
inductive PNest.Sub {α : Type} : PNest α → List PathStep → PNest α → Prop
  | here {t : PNest α} : Sub t [] t
  | list {ts : List (PNest α)} {i : Nat} {v u : PNest α} {p : List PathStep} : ts[i]? = some v → Sub v p u → Sub (.list ts) (.pos i :: p) u
  | tuple {ts : List (PNest α)} {i : Nat} {v u : PNest α} {p : List PathStep} : ts[i]? = some v → Sub v p u → Sub (.tuple ts) (.pos i :: p) u
  | dict {fs : List (String × PNest α)} {k : String} {v u : PNest α} {p : List PathStep} :
      (k, v) ∈ fs → Sub v p u → Sub (.dict fs) (.key k :: p) u
  | named {fs : List (String × PNest α)} {i : Nat} {k : String} {v u : PNest α} {p : List PathStep} :
      fs[i]? = some (k, v) → Sub v p u → Sub (.named fs) (.field i k :: p) u

/-- The leaf at the end of the path. -/
def PNest.At {α : Type} (t : PNest α) (p : List PathStep) (a : α) : Prop := t.Sub p (.leaf a)

/-- The keys of a dictionary are distinct, everywhere in the structure: this is so for every dictionary of Python. -/
def PNest.WF {α : Type} (t : PNest α) : Prop := ∀ p fs, t.Sub p (.dict fs) → (fs.map Prod.fst).Nodup

/-- There is a list in it somewhere. -/
def PNest.HasList {α : Type} (t : PNest α) : Prop := ∃ p ts, t.Sub p (.list ts)

/-- It is an empty list, tuple or dictionary. -/
def Sig.Empty (s : Sig) : Prop := s = .list [] ∨ s = .tuple [] ∨ s = .dict [] ∨ s = .named []

/-- A positive number, or −1 for an automatic choice. -/
def PositiveOrAuto (n : Int) : Prop := 1 ≤ n ∨ n = -1

/-- What the documentation asks of the arguments. -/
structure PyDatasetArgs.Documented (a : PyDatasetArgs) : Prop where
  inFlight : 1 ≤ a.inFlight
  numWorkers : PositiveOrAuto a.numWorkers
  perStream : PositiveOrAuto a.perStream
  timeout : -1 ≤ a.timeoutMs
  flexible : PositiveOrAuto a.flexible
  length : ∀ n emit, a.kind = .replay (some n) emit → 1 ≤ n

/-- How a tensor of the signature is declared by a dataset: sequences that are emitted whole have one more dimension, which is the sequence
length if that is set. -/
def PyDatasetKind.declares (k : PyDatasetKind) (w : TensorSpec) : TensorSpec :=
  match k with
  | .replay none false => ⟨w.dtype, w.shape.map (none :: ·)⟩
  | .replay (some n) false => ⟨w.dtype, w.shape.map (some n.toNat :: ·)⟩
  | _ => w

/-- What a dataset yields: timesteps, trajectories, or whole sequences. -/
def PyDatasetKind.yields (k : PyDatasetKind) : SampleCall :=
  match k with
  | .timestep => .timestep
  | .trajectory => .trajectory
  | .replay _ true => .timestep
  | .replay _ false => .batched

/-- The leading dimension of a shape is the sequence length, and unknown if that is not given. -/
def LeadingDim (length : Option Int) (s : PShape) : Prop :=
  ∃ rest, s = some ((match length with | none => none | some n => some n.toNat) :: rest)

/-- The shape of the entries of the info. -/
def PyDatasetKind.scalar (k : PyDatasetKind) : PShape :=
  match k with
  | .replay none false => some [none]
  | .replay (some n) false => some [some n.toNat]
  | _ => some []

/-- Why there is no dataset for a table: the server does not have it or it has no signature, an argument is not as documented, or whole
sequences are asked for and the rank of a tensor is not known. -/
def DatasetRefused (infos : List (String × Option Sig)) (table : String) (a : PyDatasetArgs) : Prop :=
  (∀ s, (table, some s) ∈ infos → s.Empty) ∨ ¬ a.Documented ∨
    ∃ length s p c, a.kind = .replay length false ∧ (table, some s) ∈ infos ∧ s.Leaf p c ∧ c.spec.shape = none

/-- These are the leaves of the structure with their places, each once, in the order of the places. -/
def PNest.InOrder {α : Type} (t : PNest α) (leaves : List (List PathStep × α)) : Prop :=
  (∀ p a, (p, a) ∈ leaves ↔ t.At p a) ∧ leaves.Pairwise fun a b => PathBefore a.1 b.1

end Verif
