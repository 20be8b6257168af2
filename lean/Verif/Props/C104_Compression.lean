import Verif.Proofs.Compression
import Verif.Props.C32_Delta
/-
C104: compression of tensors.
-/
namespace Verif

/-- C104: a tensor that is compressed into a new proto and decompressed is the same tensor, whatever its type, shape and contents, whatever is in
the memory that is used, in whatever pieces the library delivers, and whether or not the strings of the C++ library can grow without being
initialised. No memory beyond that of the new tensor is written. -/
theorem C104_round_trip {z : Snappy} (hz : z.Polite) (hl : z.Lossless) {t : Tensor} (ht : t.Real) (nontrashing : Bool) (fresh mem : Nat → Byte) :
    ∃ proto mem', compressTensorAsProto z nontrashing fresh t .empty = .ok proto ∧ decompressTensorFromProto z mem proto = .ok (t, mem') ∧
      ∀ i, Tensor.numElems t.shape * t.dtype.bytes ≤ i → mem' i = mem i := by
  by_cases hs : t.dtype = .string
  · refine ⟨_, mem, by rw [compressTensorAsProto, if_pos hs], ?_, fun i _ => rfl⟩
    unfold decompressTensorFromProto
    rw [if_pos hs, if_pos ht.len]
  · obtain ⟨d, h1, h2⟩ := StringSink.calls_chars nontrashing fresh (z.compress t.tensorData) ⟨[], []⟩ (hz.compress _)
    rw [List.nil_append] at h2
    refine ⟨⟨t.dtype, t.shape, d, []⟩, (z.uncompressToString d.chars (Tensor.numElems t.shape * t.dtype.bytes) mem).2, ?_, ?_, ?_⟩
    · unfold compressTensorAsProto
      rw [if_neg hs]
      have : z.compressFromString nontrashing fresh t.tensorData TensorProto.empty.content = .ok d := h1
      rw [this]
      rfl
    · unfold decompressTensorFromProto
      rw [if_neg hs]
      have : (List.range (Tensor.numElems t.shape)).map (fun i => fromMemory
          (z.uncompressToString d.chars (Tensor.numElems t.shape * t.dtype.bytes) mem).2 (i * t.dtype.bytes) t.dtype.bytes) = t.data := by
        rw [← ht.len]
        refine read_back (ht.fits hs) ?_
        intro i hi e
        rw [Snappy.uncompress_mem z hz, if_pos hi, h2, (hl t.tensorData).2]
        have hlen := flatMap_toBytes_length t.dtype.bytes t.data
        unfold Tensor.tensorData
        rw [List.getD_eq_getElem?_getD, List.getD_eq_getElem?_getD, List.getElem?_eq_getElem (by omega)]
        rfl
      exact congrArg (fun l => Res.ok ((⟨t.dtype, t.shape, l⟩ : Tensor), _)) this
    · intro i hi
      show (z.uncompressToString d.chars (Tensor.numElems t.shape * t.dtype.bytes) mem).2 i = mem i
      rw [Snappy.uncompress_mem z hz, if_neg (by omega)]

theorem real_wf {t : Tensor} (h : t.Real) : t.WF := by
  refine ⟨h.len, ?_⟩
  intro w hw x hx
  have hf := h.fits (by intro e; rw [e] at hw; cases hw) x hx
  obtain ⟨dtype, shape, data⟩ := t
  cases dtype <;> simp only [DType.bits, Option.some.injEq, reduceCtorEq] at hw <;> subst hw <;> simpa [DType.bytes] using hf

theorem real_of_wf {t e : Tensor} (h : t.Real) (he : e.WF) (hd : e.dtype = t.dtype) (ho : t.dtype.bits = none → e = t) : e.Real := by
  refine ⟨he.len, ?_⟩
  intro hs x hx
  cases hb : t.dtype.bits with
  | none =>
    rw [ho hb] at hx hs ⊢
    exact h.fits hs x hx
  | some w =>
    have := he.bits w (by rw [hd]; exact hb) x hx
    rw [hd]
    revert hb
    cases t.dtype <;> intro hb <;> simp only [DType.bits, Option.some.injEq, reduceCtorEq] at hb <;> subst hb <;> simpa [DType.bytes] using this

/-- C104: the way of a column, from the writer to the reader: delta encoding, compression, decompression and delta decoding give the tensor that
was there. Missing: tensors of an integral type without rows, see `C32_no_rows`. -/
theorem C104_chunk_partial {z : Snappy} (hz : z.Polite) (hl : z.Lossless) {t : Tensor} (ht : t.Real) (hr : t.dtype.bits = none ∨ ¬ t.NoRows)
    (nontrashing : Bool) (fresh mem : Nat → Byte) : ∃ e proto mem', Tensor.deltaEncode t true = .ok e ∧
      compressTensorAsProto z nontrashing fresh e .empty = .ok proto ∧ decompressTensorFromProto z mem proto = .ok (e, mem') ∧
      Tensor.deltaEncode e false = .ok t := by
  obtain ⟨e, h1, h2, h3, h4, h5⟩ := C32_lossless_partial (real_wf ht) hr true
  have he : e.Real := by
    refine real_of_wf ht h2 h3 ?_
    intro hb
    unfold Tensor.deltaEncode at h1
    split at h1
    · rw [Tensor.width_eq_bits, hb] at h1
      cases h1
      rfl
    · cases h1
      rfl
  obtain ⟨proto, mem', h6, h7, _⟩ := C104_round_trip hz hl he nontrashing fresh mem
  exact ⟨e, proto, mem', h1, h6, h7, h5⟩

/-- C104: whatever the content of a proto, no memory beyond that of the new tensor is written, and the tensor has the type and the shape of the
proto. -/
theorem C104_in_bounds {z : Snappy} (hz : z.Polite) {proto : TensorProto} {mem mem' : Nat → Byte} {t : Tensor}
    (h : decompressTensorFromProto z mem proto = .ok (t, mem')) : t.dtype = proto.dtype ∧ t.shape = proto.shape ∧
      t.data.length = Tensor.numElems t.shape ∧ ∀ i, Tensor.numElems t.shape * t.dtype.bytes ≤ i → mem' i = mem i := by
  unfold decompressTensorFromProto at h
  split at h
  · split at h
    · rename_i hn
      simp only [Res.ok.injEq, Prod.mk.injEq] at h
      obtain ⟨rfl, rfl⟩ := h
      exact ⟨rfl, rfl, hn, fun _ _ => rfl⟩
    · cases h
  · simp only [Res.ok.injEq, Prod.mk.injEq] at h
    obtain ⟨rfl, rfl⟩ := h
    refine ⟨rfl, rfl, by simp, ?_⟩
    intro i hi
    have hi : ¬ i < Tensor.numElems proto.shape * proto.dtype.bytes := Nat.not_lt.mpr hi
    rw [Snappy.uncompress_mem z hz, if_neg hi]

/-- C104: the same with numbers: byte `i` of the tensor is byte `i` of what the library delivered, if it delivered that many bytes, and is otherwise
what was in the memory. The result of the library does not matter. -/
theorem C104_memory {z : Snappy} (hz : z.Polite) {proto : TensorProto} {mem mem' : Nat → Byte} {t : Tensor} (hs : proto.dtype ≠ .string)
    (h : decompressTensorFromProto z mem proto = .ok (t, mem')) {i : Nat} (hi : i < Tensor.numElems t.shape * t.dtype.bytes) :
    mem' i = (appended (z.uncompress proto.content.chars).2).getD i (mem i) := by
  unfold decompressTensorFromProto at h
  rw [if_neg hs] at h
  simp only [Res.ok.injEq, Prod.mk.injEq] at h
  obtain ⟨rfl, rfl⟩ := h
  rw [Snappy.uncompress_mem z hz, if_pos hi]

namespace CompressionDemo

/-- A library that delivers bytes in pieces, one from its own memory and one through a buffer, and puts a mark in front. -/
def demo : Snappy where
  compress x := [.append [7], .fill (x.length + 5) x]
  uncompress x := match x with
    | 7 :: rest => (true, [.append (rest.take 2), .fill 3 ((rest.drop 2).take 3), .append (rest.drop 5)])
    | _ => (false, [])

theorem demo_polite : demo.Polite := by
  constructor
  · intro x c hc
    simp only [demo, List.mem_cons, List.not_mem_nil, or_false] at hc
    rcases hc with rfl | rfl
    · trivial
    · show x.length ≤ x.length + 5
      omega
  · intro x c hc
    simp only [demo] at hc
    split at hc
    · simp only [List.mem_cons, List.not_mem_nil, or_false] at hc
      rcases hc with rfl | rfl | rfl
      · trivial
      · show (List.take 3 _).length ≤ 3
        rw [List.length_take]
        omega
      · trivial
    · cases hc

theorem demo_lossless : demo.Lossless := by
  intro x
  refine ⟨by simp [demo, appended, SinkCall.bytes], ?_⟩
  have h : appended (demo.compress x) = 7 :: x := by simp [demo, appended, SinkCall.bytes]
  rw [h]
  show x.take 2 ++ ((x.drop 2).take 3 ++ (x.drop 5 ++ [])) = x
  rw [List.append_nil, show x.drop 5 = (x.drop 2).drop 3 by simp, List.take_append_drop, List.take_append_drop]

/-- A tensor of three numbers of two bytes. -/
def three : Tensor := ⟨.int16, [3], [1, 515, 65535]⟩

theorem three_real : three.Real := ⟨rfl, fun _ => by decide⟩

/-- `C104_round_trip` applies to it; its six bytes come back in three pieces. -/
theorem demo_trip : ∃ proto mem', compressTensorAsProto demo true (fun _ => 9) three .empty = .ok proto ∧
    proto.content.chars = [7, 1, 0, 3, 2, 255, 255] ∧ decompressTensorFromProto demo (fun _ => 1) proto = .ok (three, mem') :=
  ⟨_, _, rfl, by decide, by rfl⟩

end CompressionDemo

open CompressionDemo in
/-- C104 is false for contents that are damaged: the library reports that it cannot decompress them, `DecompressTensorFromProto` does not look at
that, and the tensor has what was in the memory. -/
theorem C104_damage_is_false : ∃ (z : Snappy) (proto : TensorProto) (a b : Nat → Byte) (t u : Tensor) (a' b' : Nat → Byte), z.Polite ∧ z.Lossless ∧
    (z.uncompress proto.content.chars).1 = false ∧ decompressTensorFromProto z a proto = .ok (t, a') ∧
    decompressTensorFromProto z b proto = .ok (u, b') ∧ t ≠ u :=
  ⟨demo, ⟨.int16, [1], ⟨[8, 1, 0], []⟩, []⟩, fun _ => 0, fun _ => 1, ⟨.int16, [1], [0]⟩, ⟨.int16, [1], [257]⟩, _, _, demo_polite, demo_lossless,
    rfl, rfl, rfl, by decide⟩

end Verif
