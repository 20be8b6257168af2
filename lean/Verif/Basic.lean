/-
Common types: item keys, status codes, outcomes with a distinct "process died" case,
priorities (a double that may be NaN) and a small finite-map library that stands for
`internal::flat_hash_map` (reverb/cc/platform/hash_map.h).
-/
namespace Verif

/-- `uint64` keys (item keys, chunk keys, episode ids). Overflow is not modelled. -/
abbrev Key := Nat

/-- `absl::StatusCode`, without messages. -/
inductive Code where
  | cancelled | invalidArgument | deadlineExceeded | notFound | resourceExhausted
  | failedPrecondition | outOfRange | internal | unavailable | dataLoss
  deriving DecidableEq, Repr

/-- Result of a call: a value (status OK), an error status, or the death of the process through a
`REVERB_CHECK` or undefined behaviour. -/
inductive Res (α : Type) where
  | ok (a : α)
  | err (c : Code)
  | died
  deriving DecidableEq, Repr

/-- `double` priorities. Finite doubles are rationals, NaN is kept as a separate value because
`CheckValidPriority` tests for it. Infinities are not modelled. -/
inductive Pri where
  | nan
  | val (q : Rat)
  deriving DecidableEq, Repr

/-- Finite maps, standing for `flat_hash_map`. Iteration order is never used by the model except
where a definition says so. -/
structure AMap (κ α : Type) where
  entries : List (κ × α)
  nodup : (entries.map Prod.fst).Nodup

namespace AMap

set_option linter.unusedSectionVars false

variable {κ α : Type} [DecidableEq κ]

/-- The empty map. -/
def empty : AMap κ α := ⟨[], by simp⟩

/-- `find(k)`, `none` is `end()`. -/
def get? (m : AMap κ α) (k : κ) : Option α := m.entries.lookup k

/-- `contains(k)`. -/
def contains (m : AMap κ α) (k : κ) : Bool := (m.get? k).isSome

/-- `erase(k)`. -/
def erase (m : AMap κ α) (k : κ) : AMap κ α :=
  ⟨m.entries.filter (fun e => e.1 ≠ k),
   (List.Sublist.map Prod.fst List.filter_sublist).nodup m.nodup⟩

/-- `m[k] = v`. -/
def insert (m : AMap κ α) (k : κ) (v : α) : AMap κ α :=
  ⟨(k, v) :: (m.erase k).entries, by
    have h := (m.erase k).nodup
    simp only [List.map_cons, List.nodup_cons]
    refine ⟨?_, h⟩
    simp [erase]⟩

/-- `size()`. -/
def size (m : AMap κ α) : Nat := m.entries.length

/-- The list of keys. -/
def keys (m : AMap κ α) : List κ := m.entries.map Prod.fst

theorem keys_nodup (m : AMap κ α) : m.keys.Nodup := m.nodup

@[simp] theorem get?_empty (k : κ) : (empty : AMap κ α).get? k = none := rfl
@[simp] theorem size_empty : (empty : AMap κ α).size = 0 := rfl
@[simp] theorem keys_empty : (empty : AMap κ α).keys = [] := rfl

theorem lookup_filter_ne (l : List (κ × α)) (k k' : κ) :
    (l.filter (fun e => e.1 ≠ k)).lookup k' = if k' = k then none else l.lookup k' := by
  induction l with
  | nil => simp
  | cons e t ih =>
    obtain ⟨a, b⟩ := e
    by_cases h : a = k
    · subst h
      rw [List.filter_cons_of_neg (by simp), ih]
      by_cases hk : k' = a
      · simp [hk]
      · simp [hk, List.lookup_cons, beq_eq_false_iff_ne.mpr hk]
    · rw [List.filter_cons_of_pos (by simpa using h)]
      simp only [List.lookup_cons, ih]
      by_cases hk : k' = a
      · subst hk; simp [h]
      · simp [beq_eq_false_iff_ne.mpr hk]

theorem get?_erase (m : AMap κ α) (k k' : κ) :
    (m.erase k).get? k' = if k' = k then none else m.get? k' := by
  simp only [get?, erase]; exact lookup_filter_ne _ _ _

theorem get?_insert (m : AMap κ α) (k k' : κ) (v : α) :
    (m.insert k v).get? k' = if k' = k then some v else m.get? k' := by
  have h := get?_erase m k k'
  simp only [get?, insert, List.lookup_cons] at *
  by_cases hk : k' = k
  · simp [hk]
  · simp [hk, h, beq_eq_false_iff_ne.mpr hk]

@[simp] theorem get?_insert_self (m : AMap κ α) (k : κ) (v : α) :
    (m.insert k v).get? k = some v := by simp [get?_insert]

@[simp] theorem get?_erase_self (m : AMap κ α) (k : κ) :
    (m.erase k).get? k = none := by simp [get?_erase]

theorem mem_entries_iff (m : AMap κ α) (k : κ) (v : α) :
    (k, v) ∈ m.entries ↔ m.get? k = some v := by
  obtain ⟨l, hn⟩ := m
  simp only [get?]
  induction l with
  | nil => simp
  | cons e t ih =>
    obtain ⟨a, b⟩ := e
    simp only [List.map_cons, List.nodup_cons] at hn
    have ih := ih hn.2
    simp only [List.lookup_cons, List.mem_cons, Prod.mk.injEq, ih]
    by_cases hk : k = a
    · subst hk
      have : t.lookup k = none := by
        rw [List.lookup_eq_none_iff]
        intro p hp
        have h1 := hn.1
        simp only [List.mem_map, not_exists, not_and] at h1
        have := h1 p hp
        simp
        intro hc; exact this hc.symm
      simp [this, eq_comm]
    · simp [hk, beq_eq_false_iff_ne.mpr hk]

theorem mem_keys_iff (m : AMap κ α) (k : κ) : k ∈ m.keys ↔ (m.get? k).isSome := by
  simp only [keys, List.mem_map]
  constructor
  · rintro ⟨⟨a, b⟩, hm, rfl⟩
    rw [(mem_entries_iff m _ _).mp hm]; rfl
  · intro h
    obtain ⟨v, hv⟩ := Option.isSome_iff_exists.mp h
    exact ⟨(k, v), (mem_entries_iff m _ _).mpr hv, rfl⟩

theorem not_mem_keys_iff (m : AMap κ α) (k : κ) : k ∉ m.keys ↔ m.get? k = none := by
  rw [mem_keys_iff]; simp

theorem contains_iff (m : AMap κ α) (k : κ) : m.contains k = true ↔ k ∈ m.keys := by
  rw [mem_keys_iff]; rfl

@[simp] theorem length_keys (m : AMap κ α) : m.keys.length = m.size := by simp [keys, size]

theorem keys_erase (m : AMap κ α) (k : κ) : (m.erase k).keys = m.keys.filter (· ≠ k) := by
  simp only [keys, erase, List.filter_map]; rfl

theorem keys_insert (m : AMap κ α) (k : κ) (v : α) :
    (m.insert k v).keys = k :: m.keys.filter (· ≠ k) := by
  rw [← keys_erase]; rfl

theorem filter_ne_length (l : List κ) (hn : l.Nodup) (k : κ) :
    (l.filter (· ≠ k)).length = if k ∈ l then l.length - 1 else l.length := by
  induction l with
  | nil => simp
  | cons a t ih =>
    simp only [List.nodup_cons] at hn
    have ih := ih hn.2
    by_cases h : a = k
    · subst h
      rw [List.filter_cons_of_neg (by simp), ih]
      simp [hn.1]
    · rw [List.filter_cons_of_pos (by simpa using h)]
      simp only [List.length_cons, List.mem_cons, ih]
      have h' : ¬ k = a := fun hc => h hc.symm
      by_cases hm : k ∈ t
      · have := List.length_pos_of_mem hm
        simp [hm]; omega
      · simp [hm, h']

theorem size_erase (m : AMap κ α) (k : κ) :
    (m.erase k).size = if (m.get? k).isSome then m.size - 1 else m.size := by
  rw [← length_keys, keys_erase, filter_ne_length _ m.keys_nodup, length_keys]
  simp only [mem_keys_iff]

theorem size_insert (m : AMap κ α) (k : κ) (v : α) :
    (m.insert k v).size = if (m.get? k).isSome then m.size else m.size + 1 := by
  have h : (m.insert k v).size = (m.erase k).size + 1 := rfl
  rw [h, size_erase]
  by_cases hk : (m.get? k).isSome
  · have : k ∈ m.keys := (mem_keys_iff _ _).mpr hk
    have := List.length_pos_of_mem this
    rw [length_keys] at this
    simp [hk]; omega
  · simp [hk]

theorem size_pos_of_get? {m : AMap κ α} {k : κ} {v : α} (h : m.get? k = some v) : 0 < m.size := by
  rw [← length_keys]; exact List.length_pos_of_mem ((mem_keys_iff m k).mpr (by simp [h]))

theorem size_eq_zero_iff (m : AMap κ α) : m.size = 0 ↔ ∀ k, m.get? k = none := by
  constructor
  · intro h k
    cases hk : m.get? k with
    | none => rfl
    | some v => have := size_pos_of_get? hk; omega
  · intro h
    match hm : m.entries with
    | [] => simp [size, hm]
    | (a, b) :: t =>
      have : m.get? a = some b := (mem_entries_iff m a b).mp (by simp [hm])
      rw [h a] at this; simp at this

theorem size_erase_of_some {m : AMap κ α} {k : κ} {v : α} (h : m.get? k = some v) :
    (m.erase k).size + 1 = m.size := by
  have := size_pos_of_get? h
  rw [size_erase]; simp [h]; omega

theorem size_insert_of_none {m : AMap κ α} {k : κ} (v : α) (h : m.get? k = none) :
    (m.insert k v).size = m.size + 1 := by rw [size_insert]; simp [h]

theorem size_insert_of_some {m : AMap κ α} {k : κ} {w : α} (v : α) (h : m.get? k = some w) :
    (m.insert k v).size = m.size := by rw [size_insert]; simp [h]

end AMap
end Verif
