import Verif.Model.ChunkData
import Verif.Spec.Rows
import Verif.Props.C32_Delta
namespace Verif
namespace Tensor

theorem Is.len {d : DType} {s : List Nat} {t : Tensor} (h : Is d s t) : t.data.length = numElems s := by
  rw [h.1.len, h.2.2]

theorem numElems_cons (n : Nat) (s : List Nat) : numElems (n :: s) = n * numElems s := rfl

theorem flatMap_data_length {d : DType} {s : List Nat} : ∀ {rows : List Tensor}, (∀ t ∈ rows, Is d s t) →
    (rows.flatMap Tensor.data).length = rows.length * numElems s
  | [], _ => by simp
  | t :: rows, h => by
    have ih := flatMap_data_length (rows := rows) fun u hu => h u (List.mem_cons_of_mem _ hu)
    rw [List.flatMap_cons, List.length_append, ih, (h t List.mem_cons_self).len, List.length_cons, Nat.succ_mul]
    omega

theorem stack_wf {d : DType} {s : List Nat} {rows : List Tensor} (h : ∀ t ∈ rows, Is d s t) : (stack d s rows).WF := by
  refine ⟨flatMap_data_length h, fun w hw x hx => ?_⟩
  obtain ⟨t, ht, hx⟩ := List.mem_flatMap.mp hx
  exact (h t ht).1.bits w ((h t ht).2.1 ▸ hw) x hx

theorem drop_flatMap {d : DType} {s : List Nat} : ∀ {rows : List Tensor} (_ : ∀ t ∈ rows, Is d s t) (a : Nat),
    (rows.flatMap Tensor.data).drop (a * numElems s) = (rows.drop a).flatMap Tensor.data
  | _, _, 0 => by simp
  | [], _, a + 1 => by simp
  | t :: rows, h, a + 1 => by
    have ih := drop_flatMap (rows := rows) (fun u hu => h u (List.mem_cons_of_mem _ hu)) a
    rw [List.flatMap_cons, Nat.succ_mul, Nat.add_comm, ← List.drop_drop, ← (h t List.mem_cons_self).len]
    rw [List.drop_left, (h t List.mem_cons_self).len, ih]
    rfl

theorem take_flatMap {d : DType} {s : List Nat} : ∀ {rows : List Tensor} (_ : ∀ t ∈ rows, Is d s t) (a : Nat),
    (rows.flatMap Tensor.data).take (a * numElems s) = (rows.take a).flatMap Tensor.data
  | _, _, 0 => by simp
  | [], _, a + 1 => by simp
  | t :: rows, h, a + 1 => by
    have ih := take_flatMap (rows := rows) (fun u hu => h u (List.mem_cons_of_mem _ hu)) a
    have hl := (h t List.mem_cons_self).len
    rw [List.flatMap_cons, List.take_append]
    rw [List.take_of_length_le (by rw [hl, Nat.succ_mul]; omega)]
    rw [show (a + 1) * numElems s - t.data.length = a * numElems s by rw [hl, Nat.succ_mul]; omega, ih]
    rfl

theorem slice_stack {d : DType} {s : List Nat} {rows : List Tensor} (h : ∀ t ∈ rows, Is d s t) {a b : Nat} (hab : a ≤ b)
    (hb : b ≤ rows.length) : (stack d s rows).slice a b = .ok (stack d s ((rows.drop a).take (b - a))) := by
  simp only [slice, stack, hab, hb, and_self, if_true]
  rw [drop_flatMap h, take_flatMap fun t ht => h t (List.mem_of_mem_drop ht)]
  simp only [List.length_take, List.length_drop]
  rw [Nat.min_eq_left (by omega)]

theorem subSlice_stack {d : DType} {s : List Nat} {rows : List Tensor} (h : ∀ t ∈ rows, Is d s t) {i : Nat} (hi : i < rows.length) :
    (stack d s rows).subSlice i = .ok rows[i] := by
  simp only [subSlice, stack, hi, if_true]
  rw [drop_flatMap h]
  have := take_flatMap (fun t ht => h t (List.mem_of_mem_drop ht)) (rows := rows.drop i) 1
  rw [Nat.one_mul] at this
  rw [this, List.drop_eq_getElem_cons hi]
  simp only [List.take_succ_cons, List.take_zero, List.flatMap_cons, List.flatMap_nil, List.append_nil]
  have h' := h rows[i] (List.getElem_mem hi)
  obtain ⟨_, h1, h2⟩ := h'
  rw [← h1, ← h2]

theorem concat_stacks {d : DType} {s : List Nat} {rowss : List (List Tensor)} (hne : rowss ≠ []) :
    concat (rowss.map (stack d s)) = .ok (stack d s rowss.flatten) := by
  cases rowss with
  | nil => exact absurd rfl hne
  | cons r rs =>
    simp only [List.map_cons, concat]
    rw [if_neg (by simp [stack]), if_neg (by simp [stack]), if_neg (by simp [stack])]
    simp only [stack, List.tail_cons, Res.ok.injEq, Tensor.mk.injEq, true_and, List.cons.injEq, and_true]
    constructor
    · simp only [List.map_map, List.map_cons, List.sum_cons, List.headD_cons, List.length_flatten]
      rfl
    · simp only [List.flatMap_cons, List.flatten_cons, List.flatMap_append, List.append_cancel_left_eq]
      rw [List.flatMap_map]
      clear hne
      induction rs with
      | nil => rfl
      | cons x xs ih => simp only [List.flatMap_cons, List.flatten_cons, List.flatMap_append, ih]; rfl

theorem addBatchDim_eq {d : DType} {s : List Nat} {t : Tensor} (h : Is d s t) : addBatchDim t = stack d s [t] := by
  obtain ⟨_, rfl, rfl⟩ := h
  simp [addBatchDim, stack]

theorem dropBatchDim_stack {d : DType} {s : List Nat} {t : Tensor} (h : Is d s t) : (stack d s [t]).dropBatchDim = t := by
  obtain ⟨_, rfl, rfl⟩ := h
  simp [dropBatchDim, stack]

theorem concat_batch {d : DType} {s : List Nat} {ts : List Tensor} (h : ∀ t ∈ ts, Is d s t) (hne : ts ≠ []) :
    concat (ts.map addBatchDim) = .ok (stack d s ts) := by
  have := concat_stacks (d := d) (s := s) (rowss := ts.map fun t => [t]) (by simpa using hne)
  rw [List.map_map] at this
  have he : ts.map addBatchDim = ts.map (stack d s ∘ fun t => [t]) :=
    List.map_congr_left fun t ht => addBatchDim_eq (h t ht)
  rw [he, this]
  congr 2
  clear this he hne h
  induction ts <;> simp_all

theorem delta_stack {d : DType} {s : List Nat} {rows : List Tensor} (h : ∀ t ∈ rows, Is d s t) (hne : rows ≠ []) :
    ∃ e, (stack d s rows).deltaEncode true = .ok e ∧ e.deltaEncode false = .ok (stack d s rows) := by
  obtain ⟨e, h1, _, _, _, h5⟩ := C32_lossless_partial (stack_wf h) (Or.inr fun hn => by
    obtain ⟨_, _, hs, _⟩ := hn
    simp only [stack, List.cons.injEq, List.length_eq_zero_iff] at hs
    exact hne hs.1) true
  exact ⟨e, h1, h5⟩

end Tensor

/-- A chunk with one column whose rows are `rows`. -/
def ChunkData.Holds (c : ChunkData) (d : DType) (s : List Nat) (rows : List Tensor) : Prop :=
  unpackChunkColumn c 0 = .ok (Tensor.stack d s rows) ∧ ∀ t ∈ rows, Tensor.Is d s t

theorem ChunkData.Holds.slice {c : ChunkData} {d : DType} {s : List Nat} {rows : List Tensor} (h : c.Holds d s rows) {off len : Nat}
    (hb : off + len ≤ rows.length) :
    unpackChunkColumnAndSlice c 0 off len = .ok (Tensor.stack d s ((rows.drop off).take len)) := by
  simp only [unpackChunkColumnAndSlice, h.1]
  have hshape : (Tensor.stack d s rows).shape = rows.length :: s := rfl
  simp only [hshape]
  rw [if_neg (by omega), if_neg (by omega)]
  have : ((off : Int) + (len : Int)).toNat = off + len := by omega
  rw [this, Int.toNat_natCast, Tensor.slice_stack h.2 (by omega) hb]
  congr 3
  omega

end Verif
