import Verif.Proofs.Tensor
/-
C32: delta encoding.
-/
namespace Verif
open Tensor (numElems WF deltaEncode)

/-- A tensor with no rows although a row would have elements. -/
def Tensor.NoRows (t : Tensor) : Prop := ∃ d rest, t.shape = 0 :: d :: rest ∧ 0 < numElems (d :: rest)

/-- The element in row `i` (first index) at position `j` of the row. -/
def Tensor.elem (t : Tensor) (i j : Nat) : Option Nat := t.data[i * numElems t.shape.tail + j]?

/-- C32: decoding what was encoded gives the original tensor, for all types, shapes and contents; so does encoding what was
decoded. Type and shape stay the same. Missing: tensors of an integral type without rows, for which the code reads and
writes out of bounds (`C32_no_rows`). -/
theorem C32_lossless_partial {t : Tensor} (h : t.WF) (hr : t.dtype.bits = none ∨ ¬ t.NoRows) (encode : Bool) :
    ∃ e, deltaEncode t encode = .ok e ∧ e.WF ∧ e.dtype = t.dtype ∧ e.shape = t.shape ∧ deltaEncode e (!encode) = .ok t := by
  obtain ⟨dtype, shape, data⟩ := t
  match shape with
  | [] => exact ⟨_, rfl, h, rfl, rfl, rfl⟩
  | [_] => exact ⟨_, rfl, h, rfl, rfl, rfl⟩
  | rows :: d :: rest =>
    cases hw : dtype.bits with
    | none => exact ⟨_, by simp only [deltaEncode, Tensor.width_eq_bits, hw], h, rfl, rfl, by simp only [deltaEncode, Tensor.width_eq_bits, hw]⟩
    | some w =>
      have hn : ¬ (rows = 0 ∧ 0 < numElems (d :: rest)) := by
        rintro ⟨rfl, hc⟩
        rcases hr with hr | hr
        · simp [hw] at hr
        · exact hr ⟨d, rest, rfl, hc⟩
      have hlen : data.length = rows * numElems (d :: rest) := h.len
      have hbits : ∀ x ∈ data, x < 2 ^ w := h.bits w hw
      refine ⟨⟨dtype, rows :: d :: rest, Tensor.deltaLoop w (numElems (d :: rest)) encode data (rows * numElems (d :: rest))⟩,
        by simp only [deltaEncode, Tensor.width_eq_bits, hw, if_neg hn], ⟨?_, ?_⟩, rfl, rfl, ?_⟩
      · rw [Tensor.deltaLoop_length]; rfl
      · intro w' hw' x hx
        rw [hw] at hw'
        cases hw'
        exact Tensor.deltaLoop_lt _ _ _ _ _ x hx
      · simp only [deltaEncode, Tensor.width_eq_bits, hw, if_neg hn, Res.ok.injEq, Tensor.mk.injEq, true_and]
        apply Tensor.ext_getD
        · rw [Tensor.deltaLoop_length, hlen]
        · intro k hk
          rw [Tensor.deltaLoop_length] at hk
          have hc : 0 < numElems (d :: rest) := by
            rcases Nat.eq_zero_or_pos (numElems (d :: rest)) with hz | hz
            · rw [hz] at hk; simp at hk
            · exact hz
          exact Tensor.deltaLoop_inverse hc hbits encode k hk

/-- C32: the encoded tensor holds the differences of consecutive rows, modulo `2^w`. -/
theorem C32_differences {t e : Tensor} {w i j : Nat} (h : t.WF) (hw : t.dtype.bits = some w) (hd : 2 ≤ t.shape.length)
    (he : deltaEncode t true = .ok e) (hi : t.shape.head? = some rows) (hr : i < rows) (hj : j < numElems t.shape.tail) :
    ∃ x d, t.elem i j = some x ∧ e.elem i j = some d ∧
      match i with
      | 0 => d = x
      | p + 1 => ∃ y, t.elem p j = some y ∧ x < 2 ^ w ∧ y < 2 ^ w ∧ d = (x + (2 ^ w - y)) % 2 ^ w := by
  obtain ⟨dtype, shape, data⟩ := t
  match shape, hd with
  | r :: d :: rest, _ =>
    simp only [List.head?_cons, Option.some.injEq] at hi
    subst hi
    simp only [List.tail_cons] at hj
    simp only at hw
    simp only [deltaEncode, Tensor.width_eq_bits, hw] at he
    rw [if_neg (by omega)] at he
    simp only [Res.ok.injEq] at he
    subst he
    have hlen : data.length = r * numElems (d :: rest) := h.len
    have hbits : ∀ x ∈ data, x < 2 ^ w := h.bits w hw
    have hk := Tensor.index_lt hr hj
    have hget : ∀ k, k < r * numElems (d :: rest) → data[k]? = some (data.getD k 0) := by
      intro k hk
      rw [← hlen] at hk
      simp [List.getD_eq_getElem?_getD, hk]
    refine ⟨_, (Tensor.deltaLoop w (numElems (d :: rest)) true data (r * numElems (d :: rest))).getD
      (i * numElems (d :: rest) + j) 0, hget _ hk, ?_, ?_⟩
    · simp only [Tensor.elem, List.tail_cons]
      rw [List.getD_eq_getElem?_getD, List.getElem?_eq_getElem (by rw [Tensor.deltaLoop_length]; exact hk)]
      rfl
    · rw [Tensor.deltaLoop_get _ _ _ _ hk]
      have hx := Tensor.getD_lt hbits (i * numElems (d :: rest) + j)
      cases i with
      | zero =>
        simp only [Nat.zero_mul, Nat.zero_add] at hx ⊢
        simp only [hj, if_true, BitVec.toNat_ofNat, Nat.mod_eq_of_lt hx]
      | succ p =>
        have hs : (p + 1) * numElems (d :: rest) + j - numElems (d :: rest) = p * numElems (d :: rest) + j := by
          rw [Nat.succ_mul]; omega
        have hge : ¬ (p + 1) * numElems (d :: rest) + j < numElems (d :: rest) := by rw [Nat.succ_mul]; omega
        have hy := Tensor.getD_lt hbits (p * numElems (d :: rest) + j)
        refine ⟨_, hget _ (Tensor.index_lt (by omega) hj), hx, hy, ?_⟩
        simp only [hs, if_neg hge, if_true, BitVec.toNat_add, BitVec.toNat_neg, BitVec.toNat_ofNat,
          Nat.mod_eq_of_lt hx, Nat.mod_eq_of_lt hy]
        simp [Nat.add_mod]

/-- C32: tensors of other types and tensors with fewer than two dimensions are unchanged. -/
theorem C32_unchanged (t : Tensor) (encode : Bool) (h : t.dtype.bits = none ∨ t.shape.length < 2) :
    deltaEncode t encode = .ok t := by
  obtain ⟨dtype, shape, data⟩ := t
  match shape with
  | [] => rfl
  | [_] => rfl
  | _ :: _ :: _ =>
    rcases h with h | h
    · simp only at h
      simp only [deltaEncode, Tensor.width_eq_bits, h]
    · simp at h; omega

/-- C32 for a list of tensors, as the chunker uses it. -/
theorem C32_list_partial (ts : List Tensor) (h : ∀ t ∈ ts, t.WF ∧ (t.dtype.bits = none ∨ ¬ t.NoRows)) (encode : Bool) :
    ∃ es, Tensor.deltaEncodeList ts encode = .ok es ∧ es.length = ts.length ∧
      Tensor.deltaEncodeList es (!encode) = .ok ts := by
  induction ts with
  | nil => exact ⟨_, rfl, rfl, rfl⟩
  | cons t ts ih =>
    obtain ⟨es, h1, h2, h3⟩ := ih fun t ht => h t (List.mem_cons_of_mem _ ht)
    obtain ⟨e, g1, _, _, _, g5⟩ := C32_lossless_partial (h t List.mem_cons_self).1 (h t List.mem_cons_self).2 encode
    exact ⟨e :: es, by simp [Tensor.deltaEncodeList, g1, h1], by simp [h2], by simp [Tensor.deltaEncodeList, g5, h3]⟩

/-- An `int8` matrix with wrap-around: rows (1, 128), (0, 127), (255, 0). -/
def wrapTensor : Tensor := ⟨.int8, [3, 2], [1, 128, 0, 127, 255, 0]⟩

/-- The hypotheses are met, and this is what encoding gives. -/
example : wrapTensor.WF ∧ ¬ wrapTensor.NoRows ∧ wrapTensor.dtype.bits = some 8 ∧
    deltaEncode wrapTensor true = .ok ⟨.int8, [3, 2], [1, 128, 255, 255, 255, 129]⟩ ∧
    deltaEncode ⟨.int8, [3, 2], [1, 128, 255, 255, 255, 129]⟩ false = .ok wrapTensor := by
  refine ⟨⟨by decide, fun w hw => ?_⟩, ?_, rfl, by decide, by decide⟩
  · simp [wrapTensor, DType.bits] at hw
    subst hw
    decide
  · rintro ⟨d, rest, h, _⟩
    simp [wrapTensor] at h

/-- The case left out: the code writes out of bounds. -/
theorem C32_no_rows : (⟨.int32, [0, 3], []⟩ : Tensor).WF ∧ (⟨.int32, [0, 3], []⟩ : Tensor).NoRows ∧
    deltaEncode ⟨.int32, [0, 3], []⟩ true = .died :=
  ⟨⟨rfl, by simp⟩, ⟨3, [], rfl, by decide⟩, by decide⟩

end Verif
