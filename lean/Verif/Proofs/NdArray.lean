import Verif.Spec.NdArray
/-
Lemmas for C122.
-/
namespace Verif.NdArray

/-- Place of the element at an index if elements lie one after the other, last index fastest. -/
def place : List Nat → List Nat → Nat
  | _ :: ns, i :: is => i * count ns + place ns is
  | _, _ => 0

theorem place_lt : ∀ {ns is : List Nat}, Within is ns → place ns is < count ns
  | [], [], _ => by simp [place, count]
  | n :: ns, i :: is, h => by
    have := place_lt h.2
    have h1 : i < n := h.1
    have h2 : (i + 1) * count ns ≤ n * count ns := Nat.mul_le_mul_right _ h1
    simp only [place, count]
    rw [Nat.add_mul] at h2
    omega
  | [], _ :: _, h => by cases h
  | _ :: _, [], h => by cases h

theorem flatMap_get {α β : Type} {f : α → List β} {m : Nat} (hf : ∀ x, (f x).length = m) :
    ∀ (xs : List α) (i j : Nat), j < m → (xs.flatMap f)[i * m + j]? = xs[i]?.bind fun x => (f x)[j]?
  | [], i, j, _ => by simp
  | x :: xs, 0, j, h => by
    simp only [List.flatMap_cons, Nat.zero_mul, Nat.zero_add]
    rw [List.getElem?_append_left (by rw [hf]; exact h)]
    simp
  | x :: xs, i + 1, j, h => by
    simp only [List.flatMap_cons]
    rw [List.getElem?_append_right (by rw [hf, Nat.add_mul]; omega), hf]
    have : (i + 1) * m + j - m = i * m + j := by rw [Nat.add_mul]; omega
    rw [this, flatMap_get hf xs i j h]
    simp

theorem flatMap_length {α β : Type} {f : α → List β} {m : Nat} (hf : ∀ x, (f x).length = m) (xs : List α) :
    (xs.flatMap f).length = xs.length * m := by
  induction xs with
  | nil => simp
  | cons x xs ih => simp [ih, hf, Nat.add_mul]; omega

theorem offsets_length : ∀ (ns : List Nat) (ss : List Int) (o : Int), (offsets ns ss o).length = count ns
  | [], _, _ => rfl
  | n :: ns, ss, o => by
    simp only [offsets, count]
    rw [flatMap_length (m := count ns) (fun i => offsets_length ns _ _)]
    simp

theorem offsets_get : ∀ {ns is : List Nat} {ss : List Int} (o : Int), Within is ns → ss.length = ns.length →
    (offsets ns ss o)[place ns is]? = some (o + address is ss)
  | [], [], ss, o, _, h => by
    have : ss = [] := by cases ss <;> simp_all
    subst this
    simp [offsets, place, address]
  | n :: ns, i :: is, s :: ss, o, hw, h => by
    simp only [offsets, place, List.tail_cons, List.headD_cons]
    rw [flatMap_get (m := count ns) (fun i => offsets_length ns _ _) _ _ _ (place_lt hw.2), List.getElem?_range hw.1]
    simp only [Option.bind_some]
    rw [offsets_get _ hw.2 (by simpa using h)]
    simp only [address]
    congr 1
    omega
  | n :: ns, i :: is, [], o, hw, h => by simp at h
  | [], _ :: _, _, _, h, _ => by cases h
  | _ :: _, [], _, _, h, _ => by cases h

theorem cstrides_length (sz : Nat) (ns : List Nat) : (cstrides sz ns).length = ns.length := by
  induction ns with
  | nil => rfl
  | cons n ns ih => simp [cstrides, ih]

theorem address_cstrides (sz : Nat) : ∀ {ns is : List Nat}, Within is ns → address is (cstrides sz ns) = (sz * place ns is : Nat)
  | [], [], _ => by simp [address, cstrides, place]
  | n :: ns, i :: is, h => by
    simp only [cstrides, address, place]
    rw [address_cstrides sz h.2, Nat.mul_add]
    have : sz * (i * count ns) = i * (sz * count ns) := by rw [Nat.mul_left_comm]
    rw [this]
    push_cast
    rfl
  | [], _ :: _, h => by cases h
  | _ :: _, [], h => by cases h

/-- In a new array elements lie one after the other. -/
theorem offsets_cstrides (sz : Nat) : ∀ (ns : List Nat) (o : Int),
    offsets ns (cstrides sz ns) o = (List.range (count ns)).map fun (i : Nat) => o + (sz * i : Nat)
  | [], o => by simp [offsets, cstrides, count]
  | n :: ns, o => by
    simp only [offsets, cstrides, List.tail_cons, List.headD_cons]
    have hl : ∀ i : Nat, (offsets ns (cstrides sz ns) (o + i * (sz * count ns : Nat))).length = count ns := fun i => offsets_length ns _ _
    apply List.ext_getElem?
    intro k
    by_cases hk : k < n * count ns
    · have hc : 0 < count ns := by
        rcases Nat.eq_zero_or_pos (count ns) with h0 | h0
        · rw [h0] at hk; omega
        · exact h0
      have hd : k = (k / count ns) * count ns + k % count ns := by
        have := Nat.div_add_mod k (count ns)
        rw [Nat.mul_comm] at this
        omega
      have hm : k % count ns < count ns := Nat.mod_lt _ hc
      have hq : k / count ns < n := by
        apply Nat.div_lt_of_lt_mul
        rw [Nat.mul_comm]
        exact hk
      have h1 := flatMap_get hl (List.range n) (k / count ns) (k % count ns) hm
      rw [← hd] at h1
      rw [h1, List.getElem?_range hq]
      simp only [Option.bind_some]
      rw [offsets_cstrides sz ns]
      simp only [List.getElem?_map, List.getElem?_range hm, count]
      rw [List.getElem?_range hk]
      simp only [Option.map_some]
      congr 1
      have : sz * k = (k / count ns) * (sz * count ns) + sz * (k % count ns) := by
        conv => lhs; rw [hd, Nat.mul_add, Nat.mul_left_comm]
      rw [this]
      push_cast
      omega
    · have e1 : ((List.range n).flatMap fun (i : Nat) => offsets ns (cstrides sz ns) (o + i * (sz * count ns : Nat)))[k]? = none := by
        apply List.getElem?_eq_none
        rw [flatMap_length hl]
        simp
        omega
      rw [e1]
      symm
      apply List.getElem?_eq_none
      simp [count]
      omega

theorem copy_full {dst src : List UInt8} {n : Nat} (h1 : dst.length = n) (h2 : src.length = n) : copy dst src n = .ok src := by
  unfold copy
  rw [if_pos ⟨by omega, by omega⟩, List.take_of_length_le (by omega), List.drop_eq_nil_of_le (by omega)]
  simp

/-- A loop whose conversions all succeed. -/
theorem loop_ok {α β : Type} {f : α → Out β} : ∀ (xs : List α) (ys : List β) (i : Nat) (dst : List β), xs.map f = ys.map .ok →
    i + xs.length ≤ dst.length → i + xs.length ≤ intMax → loop f xs i dst = .ok (dst.take i ++ ys ++ dst.drop (i + xs.length))
  | [], ys, i, dst, h, _, _ => by
    have : ys = [] := by cases ys <;> simp_all
    subst this
    simp [loop]
  | x :: xs, [], i, dst, h, _, _ => by simp at h
  | x :: xs, y :: ys, i, dst, h, h1, h2 => by
    simp only [List.map_cons, List.cons.injEq] at h
    simp only [List.length_cons] at h1 h2
    unfold loop
    rw [h.1]
    simp only [Out.bind]
    rw [if_pos ⟨by omega, by omega⟩, loop_ok xs ys (i + 1) (dst.set i y) h.2 (by simp; omega) (by omega)]
    congr 1
    have e1 : (dst.set i y).take (i + 1) = dst.take i ++ [y] := by
      rw [List.take_set, List.take_succ, List.getElem?_eq_getElem (by omega)]
      simp only [Option.toList_some]
      rw [List.set_append_right _ _ (by simp; omega)]
      have : i - (dst.take i).length = 0 := by simp; omega
      rw [this]
      simp
    have e2 : (dst.set i y).drop (i + 1 + xs.length) = dst.drop (i + (xs.length + 1)) := by
      rw [List.drop_set_of_lt (by omega)]
      congr 1
      omega
    rw [e1, e2]
    simp

/-- A loop ends well only if all conversions succeed and the counter does not overflow. -/
theorem loop_inv {α β : Type} {f : α → Out β} : ∀ (xs : List α) (i : Nat) (dst out : List β), loop f xs i dst = .ok out →
    (∃ ys : List β, xs.map f = ys.map .ok) ∧ (xs = [] ∨ i + xs.length ≤ intMax)
  | [], i, dst, out, _ => ⟨⟨[], rfl⟩, .inl rfl⟩
  | x :: xs, i, dst, out, h => by
    unfold loop at h
    cases hx : f x with
    | ok y =>
      rw [hx] at h
      simp only [Out.bind] at h
      split at h
      · rename_i hc
        obtain ⟨⟨ys, g1⟩, g2⟩ := loop_inv xs _ _ _ h
        refine ⟨⟨y :: ys, by simp [hx, g1]⟩, .inr ?_⟩
        rcases g2 with g2 | g2
        · subst g2; simp; omega
        · simp; omega
      · cases h
    | err e => rw [hx] at h; simp [Out.bind] at h
    | ub => rw [hx] at h; simp [Out.bind] at h

/-- A loop over too many elements that can be converted. -/
theorem loop_ub {α β : Type} {f : α → Out β} : ∀ (xs : List α) (ys : List β) (i : Nat) (dst : List β), xs.map f = ys.map .ok →
    xs ≠ [] → intMax < i + xs.length → loop f xs i dst = .ub
  | [], ys, i, dst, h, h1, _ => absurd rfl h1
  | x :: xs, [], i, dst, h, _, _ => by simp at h
  | x :: xs, y :: ys, i, dst, h, _, h2 => by
    simp only [List.map_cons, List.cons.injEq] at h
    simp only [List.length_cons] at h2
    unfold loop
    rw [h.1]
    simp only [Out.bind]
    split
    · rename_i hc
      exact loop_ub xs ys _ _ h.2 (by rintro rfl; simp at h2; omega) (by omega)
    · rfl

/-- A loop over elements of which none is undefined, and not too many, is defined. -/
theorem loop_defined {α β : Type} {f : α → Out β} (hf : ∀ x, f x ≠ .ub) : ∀ (xs : List α) (i : Nat) (dst : List β),
    i + xs.length ≤ dst.length → i + xs.length ≤ intMax → loop f xs i dst ≠ .ub
  | [], i, dst, _, _ => by simp [loop]
  | x :: xs, i, dst, h1, h2 => by
    simp only [List.length_cons] at h1 h2
    unfold loop
    cases hx : f x with
    | ok y =>
      simp only [Out.bind]
      rw [if_pos ⟨by omega, by omega⟩]
      exact loop_defined hf xs _ _ (by simp; omega) (by omega)
    | err e => simp [Out.bind]
    | ub => exact absurd hx (hf x)

theorem toBytes_iff {x : Option Obj} {b : List UInt8} : toBytes x = .ok b ↔ ∃ o, x = some o ∧ Text o b := by
  constructor
  · intro h
    unfold toBytes at h
    split at h <;> simp at h
    · exact ⟨_, rfl, h ▸ .bytes _⟩
    · exact ⟨_, rfl, h ▸ .str _⟩
  · rintro ⟨o, rfl, h⟩
    cases h <;> rfl

theorem toBytes_defined (x : Option Obj) : toBytes x ≠ .ub := by
  unfold toBytes
  split <;> simp

theorem carray_length (a : NdArray) : a.carray.data.length = a.type.size * count a.shape := by
  unfold NdArray.carray
  simp only
  rw [flatMap_length (m := a.type.size) (by simp), offsets_length, Nat.mul_comm]

theorem carray_items (a : NdArray) : a.carray.items.length = count a.shape := by
  unfold NdArray.carray
  simp [offsets_length]

theorem carray_get {a : NdArray} (ha : a.Ok) {idx : List Nat} (h : Within idx a.shape) {k : Nat} (hk : k < a.type.size) :
    a.carray.data[place a.shape idx * a.type.size + k]? = some (a.byte (address idx a.strides + k)) := by
  unfold NdArray.carray
  simp only
  rw [flatMap_get (m := a.type.size) (by simp) _ _ _ hk, offsets_get 0 h ha]
  simp [List.getElem?_range hk]

theorem carray_item {a : NdArray} (ha : a.Ok) {idx : List Nat} (h : Within idx a.shape) :
    a.carray.items[place a.shape idx]? = some (a.obj idx) := by
  unfold NdArray.carray
  simp only [List.getElem?_map]
  rw [offsets_get 0 h ha]
  simp [NdArray.obj]

theorem fresh_ok (ty : NpyType) (shape : List Nat) (d : List UInt8) (is : List (Option Obj)) : (fresh ty shape d is).Ok := by
  simp [NdArray.Ok, fresh, cstrides_length]

theorem fresh_raw {ty : NpyType} {shape : List Nat} {d : List UInt8} {is : List (Option Obj)} {idx : List Nat} (h : Within idx shape) :
    (fresh ty shape d is).raw idx = (List.range ty.size).map fun k => d.getD (place shape idx * ty.size + k) 0 := by
  unfold NdArray.raw fresh
  simp only
  apply List.map_congr_left
  intro k _
  rw [address_cstrides _ h, if_pos (by omega)]
  congr 1
  rw [Nat.mul_comm]
  omega

theorem fresh_obj {ty : NpyType} {shape : List Nat} {d : List UInt8} {is : List (Option Obj)} {idx : List Nat} (h : Within idx shape)
    (hs : 0 < ty.size) : (fresh ty shape d is).obj idx = is.getD (place shape idx) none := by
  unfold NdArray.obj fresh
  simp only
  rw [address_cstrides _ h, if_pos (by omega)]
  congr 1
  rw [Int.toNat_natCast, Nat.mul_div_cancel_left _ hs]

theorem size_pos (ty : NpyType) : 0 < ty.size := by cases ty <;> decide

theorem fresh_data {ty : NpyType} {shape : List Nat} {d : List UInt8} {is : List (Option Obj)} (h : d.length = ty.size * count shape) :
    (fresh ty shape d is).carray.data = d := by
  have hl : (fresh ty shape d is).carray.data.length = ty.size * count shape := carray_length _
  apply List.ext_getElem?
  intro k
  by_cases hk : k < ty.size * count shape
  · have hs := size_pos ty
    have hm : k % ty.size < ty.size := Nat.mod_lt _ hs
    have hq : k / ty.size < count shape := Nat.div_lt_of_lt_mul hk
    have hd : k = (k / ty.size) * ty.size + k % ty.size := by
      have := Nat.div_add_mod k ty.size
      rw [Nat.mul_comm] at this
      omega
    unfold NdArray.carray
    simp only
    conv => lhs; rw [hd]
    show (List.flatMap (fun o => (List.range ty.size).map fun (k : Nat) => (fresh ty shape d is).byte (o + k)) _)[_]? = _
    rw [flatMap_get (m := ty.size) (by simp) _ _ _ hm]
    show ((offsets shape (cstrides ty.size shape) 0)[_]?.bind _) = _
    rw [offsets_cstrides]
    simp only [List.getElem?_map, List.getElem?_range hq, Option.map_some, Option.bind_some, List.getElem?_range hm]
    unfold fresh
    simp only
    rw [if_pos (by omega)]
    have e : ((0 : Int) + (ty.size * (k / ty.size) : Nat) + (k % ty.size : Nat)).toNat = k := by
      rw [Nat.mul_comm]
      omega
    rw [e, List.getD_eq_getElem?_getD, List.getElem?_eq_getElem (by omega)]
    rfl
  · rw [List.getElem?_eq_none (by omega), List.getElem?_eq_none (by omega)]

theorem fresh_items {ty : NpyType} {shape : List Nat} {d : List UInt8} {is : List (Option Obj)} (h : is.length = count shape) :
    (fresh ty shape d is).carray.items = is := by
  have hl : (fresh ty shape d is).carray.items.length = count shape := carray_items _
  apply List.ext_getElem?
  intro k
  by_cases hk : k < count shape
  · unfold NdArray.carray
    simp only [List.getElem?_map]
    show ((offsets shape (cstrides ty.size shape) 0)[k]?.map _) = _
    rw [offsets_cstrides]
    simp only [List.getElem?_map, List.getElem?_range hk, Option.map_some]
    unfold fresh
    simp only
    rw [if_pos (by omega)]
    have e : ((0 : Int) + (ty.size * k : Nat)).toNat / ty.size = k := by
      have : ((0 : Int) + (ty.size * k : Nat)).toNat = ty.size * k := by omega
      rw [this, Nat.mul_div_cancel_left _ (size_pos ty)]
    rw [e, List.getD_eq_getElem?_getD, List.getElem?_eq_getElem (by omega)]
    rfl
  · rw [List.getElem?_eq_none (by omega), List.getElem?_eq_none (by omega)]

/-- Every place is that of an index. -/
theorem place_surj : ∀ {ns : List Nat} {k : Nat}, k < count ns → ∃ idx, Within idx ns ∧ place ns idx = k
  | [], k, h => ⟨[], trivial, by simp [count] at h; simp [place, h]⟩
  | n :: ns, k, h => by
    simp only [count] at h
    have hc : 0 < count ns := by
      rcases Nat.eq_zero_or_pos (count ns) with h0 | h0
      · rw [h0] at h; omega
      · exact h0
    obtain ⟨idx, g1, g2⟩ := place_surj (ns := ns) (Nat.mod_lt k hc)
    refine ⟨k / count ns :: idx, ⟨?_, g1⟩, ?_⟩
    · apply Nat.div_lt_of_lt_mul
      rw [Nat.mul_comm]
      exact h
    · simp only [place]
      rw [g2, Nat.mul_comm]
      exact Nat.div_add_mod k _

theorem map_ok_of {α β : Type} {f : α → Out β} : ∀ (xs : List α), (∀ x ∈ xs, ∃ y, f x = .ok y) → ∃ ys : List β, xs.map f = ys.map .ok
  | [], _ => ⟨[], rfl⟩
  | x :: xs, h => by
    obtain ⟨y, hy⟩ := h x (by simp)
    obtain ⟨ys, hys⟩ := map_ok_of xs fun z hz => h z (by simp [hz])
    exact ⟨y :: ys, by simp [hy, hys]⟩

/-- The elements of a text array that can be stored. -/
theorem items_ok {a : NdArray} (ha : a.Ok) (h : ∀ idx, Within idx a.shape → ∃ o b, a.obj idx = some o ∧ Text o b) :
    ∃ ss : List (List UInt8), a.carray.items.map toBytes = ss.map .ok := by
  apply map_ok_of
  intro x hx
  obtain ⟨k, hk, rfl⟩ := List.mem_iff_getElem.mp hx
  obtain ⟨idx, g1, g2⟩ := place_surj (by rw [← carray_items a]; exact hk)
  have h1 := carray_item ha g1
  rw [g2, List.getElem?_eq_getElem hk] at h1
  obtain ⟨o, b, e1, e2⟩ := h idx g1
  exact ⟨b, toBytes_iff.mpr ⟨o, by rw [← e1]; exact Option.some.inj h1, e2⟩⟩

theorem items_inv {a : NdArray} (ha : a.Ok) {ss : List (List UInt8)} (h : a.carray.items.map toBytes = ss.map .ok) {idx : List Nat}
    (hw : Within idx a.shape) : ∃ o b, ss[place a.shape idx]? = some b ∧ a.obj idx = some o ∧ Text o b := by
  have h1 := congrArg (·[place a.shape idx]?) h
  simp only [List.getElem?_map] at h1
  rw [carray_item ha hw] at h1
  cases hs : ss[place a.shape idx]? with
  | none => rw [hs] at h1; simp at h1
  | some b =>
    rw [hs] at h1
    simp only [Option.map_some, Option.some.injEq] at h1
    obtain ⟨o, e1, e2⟩ := toBytes_iff.mp h1
    exact ⟨o, b, rfl, e1, e2⟩

theorem toTensor_number {a : NdArray} {n : Kind × Nat} (h : a.type.number = some n) :
    ∃ t, tfType a.type = .ok t ∧ t.number = some n ∧ t ≠ .string ∧ t.size = a.type.size ∧
      toTensor (some a) = .ok ⟨t, a.shape, a.carray.data, []⟩ := by
  have key : ∃ t, tfType a.type = .ok t ∧ t.number = some n ∧ t ≠ .string ∧ t.size = a.type.size ∧ t.memcpy = true := by
    cases ht : a.type <;> rw [ht] at h <;> simp [NpyType.number] at h <;> subst h <;>
      simp [tfType, TfType.number, TfType.size, NpyType.size, TfType.memcpy]
  obtain ⟨t, g1, g2, g3, g4, g5⟩ := key
  refine ⟨t, g1, g2, g3, g4, ?_⟩
  unfold toTensor
  simp only
  have e1 : a.carray.type = a.type := rfl
  have e2 : a.carray.shape = a.shape := rfl
  rw [e1, e2, g1]
  simp only [Out.bind, verify, g5]
  simp only [Bool.not_true, Bool.false_and, Bool.false_eq_true, if_false, if_true]
  rw [copy_full (by simp [g4]) (carray_length a)]

theorem toTensor_text {a : NdArray} (h : a.type.text) : toTensor (some a) =
    (loop toBytes a.carray.items 0 (List.replicate (count a.shape) [])).bind fun ss => .ok ⟨.string, a.shape, [], ss⟩ := by
  have : tfType a.type = .ok .string := by rcases h with h | h | h <;> rw [h] <;> rfl
  unfold toTensor
  simp only
  have e1 : a.carray.type = a.type := rfl
  have e2 : a.carray.shape = a.shape := rfl
  rw [e1, e2, this]
  simp [Out.bind, verify, TfType.memcpy]

theorem toTensor_none {a : NdArray} (h : a.type.number = none) (h2 : ¬ a.type.text) : ∃ e, toTensor (some a) = .err e := by
  have : ∃ e, tfType a.type = .err e := by
    cases ht : a.type <;> rw [ht] at h h2 <;> simp [NpyType.number] at h <;> simp [NpyType.text] at h2 <;> simp [tfType]
  obtain ⟨e, he⟩ := this
  refine ⟨e, ?_⟩
  unfold toTensor
  simp only
  have e1 : a.carray.type = a.type := rfl
  rw [e1, he]
  rfl

theorem toArray_number {t : Tensor} {n : Kind × Nat} (h : t.type.number = some n) (hd : t.data.length = t.type.size * count t.shape) :
    ∃ ty, npyType t.type = .ok ty ∧ ty.number = some n ∧ tfType ty = .ok t.type ∧ ty.size = t.type.size ∧
      toArray t = .ok (fresh ty t.shape t.data []) := by
  have key : ∃ ty, npyType t.type = .ok ty ∧ ty.number = some n ∧ tfType ty = .ok t.type ∧ ty.size = t.type.size ∧ t.type.memcpy = true := by
    cases ht : t.type <;> rw [ht] at h <;> simp [TfType.number] at h <;> subst h <;>
      simp [tfType, npyType, NpyType.number, TfType.size, NpyType.size, TfType.memcpy]
  obtain ⟨ty, g1, g2, g3, g4, g5⟩ := key
  refine ⟨ty, g1, g2, g3, g4, ?_⟩
  unfold toArray
  simp only [Out.bind, verify, g5, g1]
  simp only [Bool.not_true, Bool.false_and, Bool.false_eq_true, if_false, if_true]
  rw [copy_full (by simp) (by rw [hd, g4])]

theorem toArray_text {t : Tensor} (h : t.type = .string) (hn : t.strings.length = count t.shape) (hc : count t.shape ≤ intMax) :
    toArray t = .ok (fresh .object t.shape [] (t.strings.map fun b => some (.bytes b))) := by
  unfold toArray
  simp only [h, verify, npyType, TfType.memcpy]
  simp only [Bool.not_false, Bool.true_and, bne_self_eq_false, Bool.false_eq_true, if_false, Out.bind, if_true]
  rw [loop_ok t.strings (t.strings.map fun b => some (.bytes b)) 0 _ (by simp) (by simp; omega) (by omega)]
  simp [hn]

end Verif.NdArray
