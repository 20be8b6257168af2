import Verif.Proofs.NdArray
/-
C122: arrays that a Python client writes come back with the same contents.
-/
namespace Verif.NdArray

/-- C122: a numeric array of any shape and memory layout is stored and comes back with the same shape, the same kind and width of numbers, and
at each index the same bytes; it comes back in the byte order of the machine. -/
theorem C122_numbers {a : NdArray} (ha : a.Ok) {n : Kind × Nat} (hn : a.type.number = some n) :
    ∃ t b, load (some a) = .value t ∧ t.type.number = some n ∧ t.shape = a.shape ∧ cast t = .value b ∧ b.type.number = some n ∧
      b.shape = a.shape ∧ b.swapped = false ∧ ∀ idx, Within idx a.shape → b.raw idx = a.raw idx := by
  obtain ⟨t, _, g2, _, g4, g5⟩ := toTensor_number hn
  obtain ⟨ty, _, e2, _, e4, e5⟩ := toArray_number (t := ⟨t, a.shape, a.carray.data, []⟩) g2 (by simp only [g4]; exact carray_length a)
  refine ⟨⟨t, a.shape, a.carray.data, []⟩, fresh ty a.shape a.carray.data [], by simp [load, g5], g2, rfl, by simp [cast, e5], e2, rfl, rfl, ?_⟩
  intro idx hw
  have hsz : ty.size = a.type.size := by simp only [g4] at e4; exact e4
  rw [fresh_raw hw, hsz]
  unfold NdArray.raw
  apply List.map_congr_left
  intro k hk
  rw [List.getD_eq_getElem?_getD, carray_get ha hw (List.mem_range.mp hk)]
  rfl

/-- C122, partial: unsigned integers come back with the same values, if the array has the byte order of the machine or has numbers of one
byte. The full claim, without this condition, is false (`C122_swapped_is_false`). -/
theorem C122_values_partial {a b : NdArray} {t : Tensor} (ha : a.Ok) {w : Nat} (hn : a.type.number = some (.unsigned, w))
    (ho : a.swapped = false ∨ w = 8) (hl : load (some a) = .value t) (hc : cast t = .value b) {idx : List Nat} (hw : Within idx a.shape) :
    b.nat idx = a.nat idx := by
  obtain ⟨t', b', g1, _, _, g2, g3, _, g4, g5⟩ := C122_numbers ha hn
  rw [g1] at hl
  cases hl
  rw [g2] at hc
  cases hc
  unfold NdArray.nat
  rw [g4, g5 idx hw]
  rcases ho with ho | ho
  · rw [ho]
  · subst ho
    have : a.type.size = 1 := by
      cases ht : a.type <;> rw [ht] at hn <;> simp [NpyType.number] at hn <;> rfl
    unfold NdArray.raw
    rw [this]
    simp [List.range_succ]

/-- C122: an array in the other byte order is accepted and comes back with other values: its bytes are reversed. -/
theorem C122_swapped {a b : NdArray} {t : Tensor} (ha : a.Ok) {n : Kind × Nat} (hn : a.type.number = some n) (ho : a.swapped = true)
    (hl : load (some a) = .value t) (hc : cast t = .value b) {idx : List Nat} (hw : Within idx a.shape) :
    a.nat idx = little (a.raw idx).reverse ∧ b.nat idx = little (a.raw idx) := by
  obtain ⟨t', b', g1, _, _, g2, g3, _, g4, g5⟩ := C122_numbers ha hn
  rw [g1] at hl
  cases hl
  rw [g2] at hc
  cases hc
  exact ⟨by simp [NdArray.nat, ho], by simp [NdArray.nat, g4, g5 idx hw]⟩

/-- C122: exactly when a number of any kind comes back: if the array has the byte order of the machine, or the bytes of the number are the same
backwards. -/
theorem C122_same_iff {a b : NdArray} {t : Tensor} (ha : a.Ok) {k : Kind} {w : Nat} (hn : a.type.number = some (k, w))
    (hl : load (some a) = .value t) (hc : cast t = .value b) {idx : List Nat} (hw : Within idx a.shape) :
    b.value k idx = a.value k idx ↔ (a.swapped = false ∨ mirror k (a.raw idx) = a.raw idx) := by
  obtain ⟨t', b', g1, _, _, g2, g3, _, g4, g5⟩ := C122_numbers ha hn
  rw [g1] at hl
  cases hl
  rw [g2] at hc
  cases hc
  unfold NdArray.value
  rw [g4, g5 idx hw]
  cases hs : a.swapped
  · simp
  · simp only [Bool.false_eq_true, if_false, if_true, reduceCtorEq, false_or]
    exact eq_comm

/-- C122: in particular all numbers of one byte come back, whatever the byte order of the array. -/
theorem C122_bytes {a b : NdArray} {t : Tensor} (ha : a.Ok) {k : Kind} (hn : a.type.number = some (k, 8))
    (hl : load (some a) = .value t) (hc : cast t = .value b) {idx : List Nat} (hw : Within idx a.shape) :
    b.value k idx = a.value k idx := by
  refine (C122_same_iff ha hn hl hc hw).mpr (.inr ?_)
  have h1 : a.type.size = 1 ∧ k ≠ .complex := by
    cases ht : a.type <;> rw [ht] at hn <;> simp [NpyType.number] at hn <;> subst hn <;> exact ⟨rfl, nofun⟩
  unfold NdArray.raw
  rw [h1.1]
  cases k <;> first | rfl | exact absurd rfl h1.2

/-- C122: which arrays can be stored: the numeric ones of the table `NpyType.number`, and those of strings or objects in which every element
is a byte string or a string that has a UTF-8 form, if there are less than 2^31. -/
theorem C122_accepts {a : NdArray} (ha : a.Ok) : (∃ t, load (some a) = .value t) ↔
    (a.type.number ≠ none ∨ a.type.text ∧ count a.shape < 2 ^ 31 ∧ ∀ idx, Within idx a.shape → ∃ o b, a.obj idx = some o ∧ Text o b) := by
  constructor
  · rintro ⟨t, h⟩
    by_cases hn : a.type.number = none
    · refine .inr ?_
      by_cases ht : a.type.text
      · unfold load at h
        rw [toTensor_text ht] at h
        cases hl : loop toBytes a.carray.items 0 (List.replicate (count a.shape) []) with
        | ok out =>
          obtain ⟨⟨ss, g1⟩, g2⟩ := loop_inv _ _ _ _ hl
          refine ⟨ht, ?_, fun idx hw => ?_⟩
          · have := carray_items a
            rcases g2 with g2 | g2
            · rw [g2] at this
              simp at this
              omega
            · unfold intMax at g2
              omega
          · obtain ⟨o, b, _, e2, e3⟩ := items_inv ha g1 hw
            exact ⟨o, b, e2, e3⟩
        | err e => rw [hl] at h; simp [Out.bind] at h
        | ub => rw [hl] at h; simp [Out.bind] at h
      · obtain ⟨e, he⟩ := toTensor_none hn ht
        simp [load, he] at h
    · exact .inl hn
  · rintro (h | ⟨h1, h2, h3⟩)
    · obtain ⟨n, hn⟩ := Option.ne_none_iff_exists'.mp h
      obtain ⟨t, _, _, _, _, g⟩ := toTensor_number hn
      exact ⟨_, by simp [load, g]; rfl⟩
    · obtain ⟨ss, hs⟩ := items_ok ha h3
      refine ⟨⟨.string, a.shape, [], ss⟩, ?_⟩
      unfold load
      rw [toTensor_text h1, loop_ok _ ss 0 _ hs (by simp [carray_items]) (by rw [carray_items]; unfold intMax; omega)]
      simp [Out.bind, carray_items]

/-- C122: an array of strings that is accepted comes back with the same shape, as objects that are byte strings: at each index the one
that was there, or the UTF-8 form of the string that was there. -/
theorem C122_text {a : NdArray} (ha : a.Ok) (hx : a.type.text) {t : Tensor} (hl : load (some a) = .value t) :
    t.type = .string ∧ t.shape = a.shape ∧ ∃ b, cast t = .value b ∧ b.type = .object ∧ b.shape = a.shape ∧
      ∀ idx, Within idx a.shape → ∃ o bs, a.obj idx = some o ∧ Text o bs ∧ b.obj idx = some (.bytes bs) := by
  have hacc := (C122_accepts ha).mp ⟨t, hl⟩
  have hnn : a.type.number = none := by rcases hx with h | h | h <;> rw [h] <;> rfl
  obtain ⟨_, h2, h3⟩ := hacc.resolve_left (fun h => h hnn)
  obtain ⟨ss, hs⟩ := items_ok ha h3
  have hlen : ss.length = count a.shape := by
    have := congrArg List.length hs
    simpa [carray_items] using this.symm
  have hT : load (some a) = .value ⟨.string, a.shape, [], ss⟩ := by
    unfold load
    rw [toTensor_text hx, loop_ok _ ss 0 _ hs (by simp [carray_items]) (by rw [carray_items]; unfold intMax; omega)]
    simp [Out.bind, carray_items]
  rw [hT] at hl
  cases hl
  refine ⟨rfl, rfl, fresh .object a.shape [] (ss.map fun b => some (.bytes b)), by unfold cast; rw [toArray_text rfl hlen (by unfold intMax; simp only; omega)], rfl, rfl, ?_⟩
  intro idx hw
  obtain ⟨o, bs, e1, e2, e3⟩ := items_inv ha hs hw
  refine ⟨o, bs, e2, e3, ?_⟩
  rw [fresh_obj hw (by decide), List.getD_eq_getElem?_getD]
  simp [e1]

/-- C122: different strings are not mixed up: the bytes that come back belong to one string only. -/
theorem C122_text_unique {s s' : String} {b : List UInt8} (h : Text (.str s) b) (h' : Text (.str s') b) : s = s' := by
  cases h
  generalize hb : s.toByteArray.data.toList = b at h'
  cases h'
  apply String.toByteArray_inj.mp
  have : s.toByteArray.data = s'.toByteArray.data := Array.toList_inj.mp hb
  cases h1 : s.toByteArray
  cases h2 : s'.toByteArray
  simp_all

/-- C122: the conversion of an array is defined, if it is numeric or has less than 2^31 elements: no buffer is overrun. -/
theorem C122_load_defined (a : NdArray) (h : a.type.text → count a.shape < 2 ^ 31) : load (some a) ≠ .ub := by
  unfold load
  cases hn : a.type.number with
  | some n =>
    obtain ⟨t, _, _, _, _, g⟩ := toTensor_number hn
    simp [g]
  | none =>
    by_cases ht : a.type.text
    · have hd := loop_defined toBytes_defined a.carray.items 0 (List.replicate (count a.shape) []) (by simp [carray_items])
        (by have := h ht; rw [carray_items]; unfold intMax; omega)
      rw [toTensor_text ht]
      cases hl : loop toBytes a.carray.items 0 (List.replicate (count a.shape) []) with
      | ok _ => simp [Out.bind]
      | err _ => simp [Out.bind]
      | ub => exact absurd hl hd
    · obtain ⟨e, he⟩ := toTensor_none hn ht
      simp [he]

/-- C122: an array of 2^31 or more strings is undefined behaviour: the counter of the loop is an `int`. -/
theorem C122_large {a : NdArray} (ha : a.Ok) (hx : a.type.text) (hc : 2 ^ 31 ≤ count a.shape)
    (h : ∀ idx, Within idx a.shape → ∃ o b, a.obj idx = some o ∧ Text o b) : load (some a) = .ub := by
  obtain ⟨ss, hs⟩ := items_ok ha h
  have hlen := carray_items a
  unfold load
  rw [toTensor_text hx, loop_ub _ ss 0 _ hs (by intro h0; rw [h0] at hlen; simp at hlen; omega) (by rw [hlen]; unfold intMax; omega)]
  rfl

/-- C122: a tensor comes back unchanged when the array that a client has received is written again, if its type is one of the numeric ones or
it has less than 2^31 strings. -/
theorem C122_tensor {t : Tensor} (ht : t.Ok) (h : t.type.number ≠ none ∨ t.type = .string ∧ count t.shape < 2 ^ 31) :
    ∃ a, cast t = .value a ∧ load (some a) = .value t := by
  rcases h with h | ⟨h, hc⟩
  · obtain ⟨n, hn⟩ := Option.ne_none_iff_exists'.mp h
    have hs : t.type ≠ .string := by intro h0; rw [h0] at hn; simp [TfType.number] at hn
    obtain ⟨hd, hz⟩ := ht.data hs
    obtain ⟨ty, _, g2, g3, g4, g5⟩ := toArray_number hn hd
    refine ⟨_, by simp [cast, g5]; rfl, ?_⟩
    obtain ⟨t', e1, _, _, _, e5⟩ := toTensor_number (a := fresh ty t.shape t.data []) g2
    have : t' = t.type := by
      have h1 : tfType ty = .ok t' := e1
      rw [g3] at h1
      cases h1
      rfl
    subst this
    unfold load
    rw [e5, fresh_data (by rw [hd, g4])]
    show Raised.value (⟨t.type, t.shape, t.data, []⟩ : Tensor) = .value t
    rw [← hz]
  · obtain ⟨hl, hz⟩ := ht.strings h
    refine ⟨_, by unfold cast; rw [toArray_text h hl (by unfold intMax; omega)], ?_⟩
    unfold load
    have hx : (fresh .object t.shape [] (t.strings.map fun b => some (.bytes b))).type.text := .inl rfl
    rw [toTensor_text hx, fresh_items (by simp [hl])]
    have hr : (fresh .object t.shape [] (t.strings.map fun b => some (.bytes b))).shape = t.shape := rfl
    rw [hr, loop_ok _ t.strings 0 _ (by simp [toBytes]) (by simp [hl]) (by rw [List.length_map, hl]; unfold intMax; omega)]
    simp only [Out.bind, List.take_zero, List.nil_append, List.length_map, Nat.zero_add, hl]
    rw [List.drop_eq_nil_of_le (by simp), List.append_nil, ← h, ← hz]

/-- C122: a tensor of any other type makes reading fail with a `ValueError`. -/
theorem C122_tensor_other {t : Tensor} (h : t.type.number = none) (hs : t.type ≠ .string) : cast t = .valueError := by
  have : ∃ e, toArray t = .err e := by
    unfold toArray
    cases ht : t.type <;> rw [ht] at h hs <;> simp [TfType.number] at h <;> simp at hs <;>
      simp [verify, TfType.memcpy, npyType, Out.bind]
  obtain ⟨e, he⟩ := this
  simp [cast, he]

/-- What numpy cannot read at all is refused. -/
theorem C122_not_array : load none = .typeError := rfl

/-! ### Cases -/

/-- `np.arange(6, dtype='u4').reshape(2, 3).T`: shape 3 × 2, not in C order. -/
def demo : NdArray where
  type := .uint
  swapped := false
  shape := [3, 2]
  strides := [4, 12]
  byte o := if o % 4 = 0 then UInt8.ofNat (o / 4).toNat else 0
  item _ := none

example : demo.Ok ∧ Within [2, 1] demo.shape ∧ demo.nat [2, 1] = 5 ∧ demo.type.number = some (.unsigned, 32) :=
  ⟨rfl, ⟨by decide, by decide, trivial⟩, by decide +kernel, rfl⟩

example : ∃ t b, load (some demo) = .value t ∧ cast t = .value b ∧ b.nat [2, 1] = 5 := by
  obtain ⟨t, b, h1, _, _, h2, _⟩ := C122_numbers (a := demo) rfl rfl
  exact ⟨t, b, h1, h2, (C122_values_partial (a := demo) rfl rfl (.inl rfl) h1 h2 (idx := [2, 1]) ⟨by decide, by decide, trivial⟩).trans (by decide +kernel)⟩

/-- `np.array([1], dtype='>u4')`. -/
def swappedOne : NdArray where
  type := .uint
  swapped := true
  shape := [1]
  strides := [4]
  byte o := if o = 3 then 1 else 0
  item _ := none

/-- C122: the full claim about values is false: the number 1 of an array of the other byte order is stored without an error and comes back
as 2^24. -/
theorem C122_swapped_is_false : ∃ a t b idx, a.Ok ∧ a.type.number = some (.unsigned, 32) ∧ Within idx a.shape ∧ load (some a) = .value t ∧
    cast t = .value b ∧ a.nat idx = 1 ∧ b.nat idx = 16777216 := by
  obtain ⟨t, b, h1, _, _, h2, _⟩ := C122_numbers (a := swappedOne) rfl rfl
  have hw : Within [0] swappedOne.shape := ⟨by decide, trivial⟩
  refine ⟨swappedOne, t, b, [0], rfl, rfl, hw, h1, h2, by decide +kernel, ?_⟩
  rw [(C122_swapped (a := swappedOne) rfl rfl rfl h1 h2 hw).2]
  decide +kernel

/-- Both sides of `C122_same_iff`: the bytes of `swappedOne[0]` are not the same backwards; a complex number is mirrored by halves. -/
example : mirror .unsigned (swappedOne.raw [0]) ≠ swappedOne.raw [0] ∧ mirror .complex [1, 2, 3, 4, 5, 6, 7, 8] = [4, 3, 2, 1, 8, 7, 6, 5] ∧
    mirror .unsigned [7, 0, 0, 7] = [7, 0, 0, 7] := by decide +kernel

/-- `np.array('ab')` of shape `shape`, the same element everywhere (`np.broadcast_to`). -/
def texts (shape : List Nat) (o : Obj) : NdArray where
  type := .unicode
  swapped := false
  shape := shape
  strides := shape.map fun _ => 0
  byte _ := 0
  item _ := some o

/-- C122: strings do not come back as what they were: they have become byte strings. -/
theorem C122_text_is_false : ∃ a t b, a.Ok ∧ a.type.text ∧ load (some a) = .value t ∧ cast t = .value b ∧
    a.obj [] = some (.str "ab") ∧ b.obj [] = some (.bytes [97, 98]) := by
  have ha : (texts [] (.str "ab")).Ok := rfl
  have hx : (texts [] (.str "ab")).type.text := .inr (.inr rfl)
  obtain ⟨t, ht⟩ := (C122_accepts ha).mpr (.inr ⟨hx, by decide, fun idx _ => ⟨_, _, rfl, .str _⟩⟩)
  obtain ⟨_, _, b, h1, _, _, h2⟩ := C122_text ha hx ht
  obtain ⟨o, bs, e1, e2, e3⟩ := h2 [] trivial
  refine ⟨_, t, b, ha, hx, ht, h1, rfl, ?_⟩
  have : o = .str "ab" := (Option.some.inj e1).symm
  subst this
  cases e2
  rw [e3]
  decide +kernel

/-- C122: there is an array of strings, well formed, for which writing is undefined behaviour. -/
theorem C122_large_is_false : ∃ a, a.Ok ∧ a.type.text ∧ load (some a) = .ub :=
  ⟨texts [2 ^ 31] (.str "ab"), rfl, .inr (.inr rfl),
    C122_large (a := texts [2 ^ 31] (.str "ab")) rfl (.inr (.inr rfl)) (by simp [texts, count]) fun _ _ => ⟨_, _, rfl, .str _⟩⟩

/-- An element that is no string is refused. -/
example : load (some (texts [2] .other)) = .typeError := by rfl

/-- A tensor that meets the hypotheses of `C122_tensor`, and one for `C122_tensor_other`. -/
example : Tensor.Ok ⟨.int16, [2, 1], [1, 2, 3, 4], []⟩ ∧ Tensor.Ok ⟨.string, [2], [], [[1], []]⟩ ∧
    cast ⟨.bfloat16, [1], [1, 2], []⟩ = .valueError :=
  ⟨⟨by decide, by decide⟩, ⟨by decide, by decide⟩, C122_tensor_other rfl (by decide)⟩

end Verif.NdArray
