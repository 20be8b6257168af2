import Verif.Spec.Compression
/-
Lemmas for C104.
-/
namespace Verif

theorem StdString.resize_le (s : StdString) (fresh : Nat → Byte) {n : Nat} (h : n ≤ s.chars.length + s.spare.length) :
    s.resizeUninitialized fresh n = ⟨(s.chars ++ s.spare).take n, (s.chars ++ s.spare).drop n⟩ := by
  unfold StdString.resizeUninitialized
  rw [if_pos h]

theorem StdString.resize_gt (s : StdString) (fresh : Nat → Byte) {n : Nat} (h : ¬ n ≤ s.chars.length + s.spare.length) :
    s.resizeUninitialized fresh n = ⟨s.chars ++ (List.range (n - s.chars.length)).map fresh, []⟩ := by
  unfold StdString.resizeUninitialized
  rw [if_neg h]

theorem StringSink.call_chars (nontrashing : Bool) (fresh : Nat → Byte) (dest : StdString) {c : SinkCall} (hc : c.Fits) :
    ∃ d, StringSink.call nontrashing fresh dest c = .ok d ∧ d.chars = dest.chars ++ c.bytes := by
  cases c with
  | append bytes => exact ⟨_, rfl, by simp [StringSink.append, StdString.append, SinkCall.bytes]⟩
  | fill length bytes =>
    have hc : bytes.length ≤ length := hc
    cases nontrashing with
    | false => exact ⟨_, rfl, by simp [StringSink.getAppendBuffer, StringSink.append, StdString.append, SinkCall.bytes]⟩
    | true =>
      have key : ∀ d : StdString, d.chars = dest.chars → bytes.length ≤ d.spare.length →
          ∃ d', StringSink.fill true fresh d true bytes = .ok d' ∧ d'.chars = dest.chars ++ bytes := by
        intro d hd hs
        refine ⟨StringSink.append true fresh ⟨d.chars, bytes ++ d.spare.drop bytes.length⟩ true bytes, ?_, ?_⟩
        · simp [StringSink.fill, StringSink.write, hs]
        · have : StringSink.append true fresh ⟨d.chars, bytes ++ d.spare.drop bytes.length⟩ true bytes =
              (⟨d.chars, bytes ++ d.spare.drop bytes.length⟩ : StdString).resizeUninitialized fresh (d.chars.length + bytes.length) := rfl
          rw [this, StdString.resize_le _ _ (by simp)]
          simp only [hd, ← List.append_assoc]
          rw [List.take_append_of_le_length (by simp), List.take_of_length_le (by simp)]
      show ∃ d, StringSink.fill true fresh _ _ bytes = .ok d ∧ d.chars = dest.chars ++ bytes
      simp only [StringSink.getAppendBuffer, Bool.not_true, Bool.false_eq_true, if_false]
      split
      · rename_i hlt
        have h1 := StdString.resize_gt dest fresh (n := length + dest.chars.length) (by omega)
        have h2 := StdString.resize_le (dest.resizeUninitialized fresh (length + dest.chars.length)) fresh (n := dest.chars.length) (by
          rw [h1]
          simp)
        refine key _ ?_ ?_
        · simp only
          rw [h2, h1]
          simp
        · simp only
          rw [h2, h1]
          simp
          omega
      · exact key _ rfl (by simp only; omega)

theorem StringSink.calls_chars (nontrashing : Bool) (fresh : Nat → Byte) (calls : List SinkCall) (dest : StdString) (hc : ∀ c ∈ calls, c.Fits) :
    ∃ d, StringSink.calls nontrashing fresh dest calls = .ok d ∧ d.chars = dest.chars ++ appended calls := by
  induction calls generalizing dest with
  | nil => exact ⟨_, rfl, by simp [appended]⟩
  | cons c calls ih =>
    obtain ⟨d, h1, h2⟩ := StringSink.call_chars nontrashing fresh dest (hc c List.mem_cons_self)
    obtain ⟨d', h3, h4⟩ := ih d fun x hx => hc x (List.mem_cons_of_mem _ hx)
    refine ⟨d', by simp [StringSink.calls, h1, h3], ?_⟩
    rw [h4, h2]
    simp [appended, List.append_assoc]

/-- The state of the sink after bytes have been given to it. -/
structure ByteSink.After (s : ByteSink) (m : Nat → Byte) (cap : Nat) (bytes : List Byte) : Prop where
  capacity : s.capacity = cap
  size : s.size = min cap bytes.length
  overflowed : s.overflowed = decide (cap < bytes.length)
  mem : ∀ i, s.mem i = if i < cap then bytes.getD i (m i) else m i

theorem getD_append_left {l l' : List Byte} {i : Nat} (h : i < l.length) (d : Byte) : (l ++ l').getD i d = l.getD i d := by
  simp only [List.getD_eq_getElem?_getD, List.getElem?_append_left h]

theorem getD_append_right {l l' : List Byte} {i : Nat} (h : l.length ≤ i) (d : Byte) : (l ++ l').getD i d = l'.getD (i - l.length) d := by
  simp only [List.getD_eq_getElem?_getD, List.getElem?_append_right h]

theorem getD_beyond {l : List Byte} {i : Nat} (h : l.length ≤ i) (d : Byte) : l.getD i d = d := by
  simp only [List.getD_eq_getElem?_getD, List.getElem?_eq_none h, Option.getD_none]

theorem getD_take {l : List Byte} {i n : Nat} (h : i < n) (d : Byte) : (l.take n).getD i d = l.getD i d := by
  simp only [List.getD_eq_getElem?_getD, List.getElem?_take, if_pos h]

theorem ByteSink.taken_eq (s : ByteSink) (n : Nat) : s.taken n = min n (s.capacity - s.size) := by
  simp only [ByteSink.taken]
  split <;> omega

theorem ByteSink.append_mem (s : ByteSink) (bytes : List Byte) :
    (s.append false bytes).mem = ByteSink.write s.mem s.size (bytes.take (s.taken bytes.length)) := by
  show (if _ then _ else _) = _
  split
  · rfl
  · rename_i hn
    have : s.taken bytes.length = 0 := by
      simp only [Bool.not_false, and_true] at hn
      omega
    rw [this]
    funext i
    simp [ByteSink.write]

theorem ByteSink.append_after {s : ByteSink} {mem : Nat → Byte} {cap : Nat} {old : List Byte} (h : s.After mem cap old) (bytes : List Byte) :
    (s.append false bytes).After mem cap (old ++ bytes) := by
  obtain ⟨h1, h2, h3, h4⟩ := h
  refine ⟨h1, ?_, ?_, ?_⟩
  · show s.size + s.taken bytes.length = _
    rw [taken_eq, List.length_append]
    omega
  · show (s.overflowed || decide (bytes.length > s.capacity - s.size)) = _
    rw [Bool.eq_iff_iff]
    simp only [h3, h1, h2, List.length_append, Bool.or_eq_true, decide_eq_true_eq]
    omega
  · intro i
    rw [append_mem, taken_eq, h1, h2]
    unfold ByteSink.write
    by_cases hi : min cap old.length ≤ i
    · rw [if_pos hi, h4]
      by_cases hc : i < cap
      · rw [if_pos hc, if_pos hc, show min cap old.length = old.length by omega, getD_beyond (l := old) (by omega), getD_append_right (by omega)]
        by_cases hb : i - old.length < bytes.length
        · rw [getD_take (by omega)]
        · rw [getD_beyond (l := bytes) (by omega), getD_beyond (by rw [List.length_take]; omega)]
      · rw [if_neg hc, if_neg hc, getD_beyond (by rw [List.length_take]; omega)]
    · rw [if_neg hi, h4, if_pos (by omega), if_pos (by omega), getD_append_left (by omega)]

theorem ByteSink.call_after {s : ByteSink} {mem : Nat → Byte} {cap : Nat} {old : List Byte} (h : s.After mem cap old) {c : SinkCall} (hc : c.Fits) :
    (s.call c).After mem cap (old ++ c.bytes) := by
  cases c with
  | append bytes => exact append_after h bytes
  | fill length bytes =>
    have hc : bytes.length ≤ length := hc
    unfold ByteSink.call
    simp only [SinkCall.bytes]
    split
    · rename_i hg
      simp only [ByteSink.getAppendBuffer, decide_eq_true_eq, ge_iff_le] at hg
      by_cases hb : bytes = []
      · subst hb
        obtain ⟨h1, h2, h3, h4⟩ := h
        refine ⟨h1, ?_, ?_, ?_⟩
        · simp [ByteSink.append, ByteSink.taken_eq, h2]
        · simp [ByteSink.append, h3]
        · intro i
          simp [ByteSink.append, ByteSink.write, h4]
      · have hpos : 0 < bytes.length := List.length_pos_iff.mpr hb
        have he : ({ s with mem := ByteSink.write s.mem s.size bytes } : ByteSink).append true bytes = s.append false bytes := by
          unfold ByteSink.append
          have ht : s.taken bytes.length = bytes.length := by
            rw [taken_eq]
            omega
          have ht' : ∀ m, ({ s with mem := m } : ByteSink).taken bytes.length = bytes.length := fun m => ht
          simp [ht, ht', hpos]
        rw [he]
        exact append_after h bytes
    · exact append_after h bytes

theorem ByteSink.calls_after {calls : List SinkCall} {s : ByteSink} {mem : Nat → Byte} {cap : Nat} {old : List Byte} (h : s.After mem cap old)
    (hc : ∀ c ∈ calls, c.Fits) : (calls.foldl ByteSink.call s).After mem cap (old ++ appended calls) := by
  induction calls generalizing s old with
  | nil => simpa [appended] using h
  | cons c calls ih =>
    have := ih (call_after h (hc c List.mem_cons_self)) fun x hx => hc x (List.mem_cons_of_mem _ hx)
    simpa [appended, List.append_assoc] using this

/-- What is in the memory after `SnappyUncompressToString`. -/
theorem Snappy.uncompress_mem (z : Snappy) (hz : z.Polite) (input : List Byte) (capacity : Nat) (mem : Nat → Byte) (i : Nat) :
    (z.uncompressToString input capacity mem).2 i = if i < capacity then (appended (z.uncompress input).2).getD i (mem i) else mem i := by
  have h0 : ByteSink.After ⟨mem, capacity, 0, false⟩ mem capacity [] := ⟨rfl, by simp, by simp, fun i => by simp⟩
  have := (ByteSink.calls_after h0 (hz.uncompress input)).mem i
  simpa [Snappy.uncompressToString] using this

@[simp] theorem toBytes_length (n x : Nat) : (toBytes n x).length = n := by
  induction n generalizing x with
  | zero => rfl
  | succ n ih => simp [toBytes, ih]

theorem fromMemory_congr {m m' : Nat → Byte} {a b n : Nat} (h : ∀ i < n, m (a + i) = m' (b + i)) : fromMemory m a n = fromMemory m' b n := by
  induction n generalizing a b with
  | zero => rfl
  | succ n ih =>
    simp only [fromMemory]
    rw [show m a = m' b by simpa using h 0 (by omega), ih fun i hi => by
      have := h (i + 1) (by omega)
      rwa [show a + (i + 1) = a + 1 + i by omega, show b + (i + 1) = b + 1 + i by omega] at this]

theorem fromMemory_toBytes {n x : Nat} (h : x < 256 ^ n) : fromMemory (fun i => (toBytes n x).getD i 0) 0 n = x := by
  induction n generalizing x with
  | zero =>
    simp at h
    simp [fromMemory, h]
  | succ n ih =>
    have hx : x / 256 < 256 ^ n := by
      rw [Nat.div_lt_iff_lt_mul (by omega)]
      rwa [Nat.pow_succ] at h
    simp only [fromMemory, toBytes]
    rw [fromMemory_congr (m' := fun i => (toBytes n (x / 256)).getD i 0) (b := 0) (n := n) ?_, ih hx]
    · simp
      omega
    · intro i hi
      rw [Nat.add_comm 0 1, Nat.add_comm (1 + 0) i]
      simp [Nat.add_comm 0 i]

theorem flatMap_toBytes_getD {size : Nat} {l : List Nat} {i j : Nat} (hi : i < l.length) (hj : j < size) (d : Byte) :
    (l.flatMap (toBytes size)).getD (i * size + j) d = (toBytes size l[i]).getD j d := by
  induction l generalizing i with
  | nil => simp at hi
  | cons x l ih =>
    rw [List.flatMap_cons]
    cases i with
    | zero =>
      simp only [Nat.zero_mul, Nat.zero_add, List.getElem_cons_zero]
      rw [getD_append_left (by simpa using hj)]
    | succ i =>
      rw [getD_append_right (by rw [toBytes_length, Nat.succ_mul]; omega)]
      rw [toBytes_length, show (i + 1) * size + j - size = i * size + j by rw [Nat.succ_mul]; omega, ih (by simpa using hi)]
      simp

theorem flatMap_toBytes_length (size : Nat) (l : List Nat) : (l.flatMap (toBytes size)).length = l.length * size := by
  induction l with
  | nil => simp
  | cons x l ih =>
    rw [List.flatMap_cons, List.length_append, ih, toBytes_length, List.length_cons, Nat.succ_mul]
    omega

/-- The elements are read back from their bytes. -/
theorem read_back {size : Nat} {l : List Nat} (hl : ∀ x ∈ l, x < 256 ^ size) {mem : Nat → Byte}
    (hm : ∀ i, i < l.length * size → ∀ d, mem i = (l.flatMap (toBytes size)).getD i d) :
    (List.range l.length).map (fun i => fromMemory mem (i * size) size) = l := by
  refine List.ext_getElem (by simp) ?_
  intro i h1 h2
  simp only [List.getElem_map, List.getElem_range]
  have hx := fromMemory_toBytes (hl l[i] (List.getElem_mem h2))
  rw [fromMemory_congr (b := 0) (m' := fun j => (toBytes size l[i]).getD j 0) ?_]
  · exact hx
  · intro j hj
    have hlt : i * size + j < l.length * size := by
      calc i * size + j < i * size + size := by omega
        _ = (i + 1) * size := by rw [Nat.succ_mul]
        _ ≤ l.length * size := Nat.mul_le_mul_right _ h2
    rw [hm _ hlt 0, flatMap_toBytes_getD h2 hj]
    simp

end Verif
