import Verif.Model.Tensor
namespace Verif.Tensor

/-- `DeltaEncode` treats exactly the integer types, with their width. -/
theorem width_eq_bits (d : DType) : d.width = d.bits := by cases d <;> rfl

theorem deltaLoop_length (w cols : Nat) (e : Bool) (src : List Nat) : ∀ k, (deltaLoop w cols e src k).length = k
  | 0 => rfl
  | k + 1 => by simp [deltaLoop, deltaLoop_length w cols e src k]

theorem deltaLoop_lt (w cols : Nat) (e : Bool) (src : List Nat) : ∀ k, ∀ x ∈ deltaLoop w cols e src k, x < 2 ^ w
  | 0 => by simp [deltaLoop]
  | k + 1 => by
    intro x hx
    simp only [deltaLoop, List.mem_append, List.mem_singleton] at hx
    rcases hx with hx | hx
    · exact deltaLoop_lt w cols e src k x hx
    · subst hx; exact BitVec.isLt _

/-- The entries do not change any more. -/
theorem deltaLoop_get (w cols : Nat) (e : Bool) (src : List Nat) : ∀ {n k : Nat}, k < n → (deltaLoop w cols e src n).getD k 0 =
    (if k < cols then BitVec.ofNat w (src.getD k 0)
      else BitVec.ofNat w (src.getD k 0) + (if e then -(BitVec.ofNat w (src.getD (k - cols) 0))
        else BitVec.ofNat w ((deltaLoop w cols e src k).getD (k - cols) 0))).toNat
  | n + 1, k, h => by
    rw [deltaLoop]
    by_cases hk : k = n
    · subst hk
      simp only
      rw [List.getD_eq_getElem?_getD, List.getElem?_append_right (by rw [deltaLoop_length]; exact Nat.le_refl _),
        deltaLoop_length, Nat.sub_self]
      rfl
    · rw [List.getD_eq_getElem?_getD, List.getElem?_append_left (by rw [deltaLoop_length]; omega), ← List.getD_eq_getElem?_getD]
      exact deltaLoop_get w cols e src (by omega)

/-- Entries of a shorter run. -/
theorem deltaLoop_prefix (w cols : Nat) (e : Bool) (src : List Nat) {n m k : Nat} (h : k < n) (h' : k < m) :
    (deltaLoop w cols e src n).getD k 0 = (deltaLoop w cols e src m).getD k 0 := by
  rw [deltaLoop_get w cols e src h, deltaLoop_get w cols e src h']

theorem getD_lt {w : Nat} {l : List Nat} (h : ∀ x ∈ l, x < 2 ^ w) (k : Nat) : l.getD k 0 < 2 ^ w := by
  rw [List.getD_eq_getElem?_getD]
  cases hk : l[k]? with
  | none => simp [Nat.two_pow_pos]
  | some x => simpa using h x (List.mem_of_getElem? hk)

/-- What decoding an encoded matrix, and encoding a decoded one, gives at each place. -/
theorem deltaLoop_inverse {w cols : Nat} {src : List Nat} {n : Nat} (hc : 0 < cols) (hb : ∀ x ∈ src, x < 2 ^ w) (e : Bool) :
    ∀ k, k < n → (deltaLoop w cols (!e) (deltaLoop w cols e src n) n).getD k 0 = src.getD k 0 := by
  intro k
  induction k using Nat.strongRecOn with
  | _ k ih =>
    intro hk
    have hx := getD_lt hb k
    rw [deltaLoop_get _ _ _ _ hk, deltaLoop_get _ _ _ src hk]
    by_cases h : k < cols
    · simp only [h, if_true, BitVec.ofNat_toNat, BitVec.setWidth_eq]
      rw [List.getD_eq_getElem?_getD] at hx; simp [Nat.mod_eq_of_lt hx]
    · simp only [h, if_false, BitVec.ofNat_toNat, BitVec.setWidth_eq]
      have hlt : k - cols < k := by omega
      cases e with
      | true =>
        simp only [Bool.not_true, Bool.false_eq_true, if_false, if_true]
        rw [deltaLoop_prefix _ _ _ _ hlt (show k - cols < n by omega)]
        have := ih (k - cols) hlt (by omega)
        simp only [Bool.not_true] at this
        rw [this, BitVec.add_assoc, BitVec.add_comm (-_), ← BitVec.sub_eq_add_neg, BitVec.sub_self]
        rw [List.getD_eq_getElem?_getD] at hx; simp [Nat.mod_eq_of_lt hx]
      | false =>
        simp only [Bool.not_false, Bool.false_eq_true, if_false, if_true]
        rw [deltaLoop_prefix _ _ _ _ hlt (show k - cols < n by omega), BitVec.add_assoc, ← BitVec.sub_eq_add_neg, BitVec.sub_self]
        rw [List.getD_eq_getElem?_getD] at hx; simp [Nat.mod_eq_of_lt hx]

theorem ext_getD {a b : List Nat} (h : a.length = b.length) (h' : ∀ k, k < a.length → a.getD k 0 = b.getD k 0) : a = b := by
  apply List.ext_getElem h
  intro i h1 h2
  have := h' i h1
  simpa [List.getD_eq_getElem?_getD, h1, h2] using this

/-- The indices of a matrix. -/
theorem index_lt {rows cols i j : Nat} (hi : i < rows) (hj : j < cols) : i * cols + j < rows * cols := by
  calc i * cols + j < i * cols + cols := by omega
    _ = (i + 1) * cols := by rw [Nat.succ_mul]
    _ ≤ rows * cols := Nat.mul_le_mul_right _ hi

end Verif.Tensor
