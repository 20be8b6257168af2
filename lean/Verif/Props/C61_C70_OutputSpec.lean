import Verif.Spec.OutputSpec
import Verif.Proofs.ClientSamplerRun
import Verif.Props.C44_C46_Sample
/-
C61: validation against the output spec. C70: requested types and shapes.
-/
namespace Verif
open ClientSampler

theorem dimsCompatible_shape {dims : List (Option Nat)} {shape : List Nat} : dimsCompatible dims (shape.map some) = true ↔
    dims.length = shape.length ∧ ∀ (i d : Nat), dims[i]? = some (some d) → shape[i]? = some d := by
  induction dims generalizing shape with
  | nil =>
    cases shape with
    | nil => simp [dimsCompatible]
    | cons s ss => simp [dimsCompatible]
  | cons a as ih =>
    cases shape with
    | nil => cases a <;> simp [dimsCompatible]
    | cons s ss =>
      cases a with
      | none =>
        simp only [List.map_cons, dimsCompatible, ih, List.length_cons, Nat.add_right_cancel_iff]
        refine and_congr_right fun _ => ⟨?_, ?_⟩
        · intro h i d hi
          cases i with
          | zero => simp at hi
          | succ i => exact h i d hi
        · intro h i d hi
          exact h (i + 1) d hi
      | some a =>
        simp only [List.map_cons, dimsCompatible, Bool.and_eq_true, beq_iff_eq, ih, List.length_cons, Nat.add_right_cancel_iff]
        constructor
        · rintro ⟨e, h1, h2⟩
          refine ⟨h1, ?_⟩
          intro i d hi
          cases i with
          | zero =>
            simp only [List.getElem?_cons_zero, Option.some.injEq] at hi ⊢
            omega
          | succ i => exact h2 i d hi
        · rintro ⟨h1, h2⟩
          refine ⟨?_, h1, fun i d hi => h2 (i + 1) d hi⟩
          have := h2 0 a (by simp)
          simp only [List.getElem?_cons_zero, Option.some.injEq] at this
          exact this.symm

theorem accepts_iff {w : TensorSpec} {dtype : DType} {shape : List Nat} : w.accepts ⟨dtype, .ofShape shape⟩ = true ↔ w.Allows dtype shape := by
  unfold TensorSpec.accepts TensorSpec.Allows
  simp only [Bool.and_eq_true, beq_iff_eq, PShape.ofShape]
  refine and_congr_right fun _ => ?_
  cases hs : w.shape with
  | none => simp [PShape.compatible]
  | some dims => simp [PShape.compatible, dimsCompatible_shape]

theorem fits_iff {k : SampleCall} {w : TensorSpec} {t : Tensor} : k.fits w t = true ↔ k.Agrees w t := by
  unfold SampleCall.fits SampleCall.Agrees
  cases k with
  | batched =>
    simp only
    cases hs : t.shape with
    | nil => simp
    | cons n rest =>
      simp only [accepts_iff, List.cons.injEq]
      constructor
      · exact fun h => ⟨n, rest, ⟨rfl, rfl⟩, h⟩
      · rintro ⟨_, _, ⟨rfl, rfl⟩, h⟩
        exact h
  | timestep => exact accepts_iff
  | trajectory => exact accepts_iff

theorem fitAll_iff {k : SampleCall} {ws : List TensorSpec} {ts : List Tensor} : k.fitAll ws ts = true ↔
    ∀ (i : Nat) (w : TensorSpec) (t : Tensor), ws[i]? = some w → ts[i]? = some t → k.Agrees w t := by
  induction ws generalizing ts with
  | nil => simp [SampleCall.fitAll]
  | cons w ws ih =>
    cases ts with
    | nil => simp [SampleCall.fitAll]
    | cons t ts =>
      unfold SampleCall.fitAll
      split
      · rename_i h
        rw [ih]
        constructor
        · intro g i w' t' h1 h2
          cases i with
          | zero =>
            simp only [List.getElem?_cons_zero, Option.some.injEq] at h1 h2
            subst h1
            subst h2
            exact fits_iff.mp h
          | succ i => exact g i w' t' h1 h2
        · intro g i w' t' h1 h2
          exact g (i + 1) w' t' h1 h2
      · rename_i h
        simp only [Bool.false_eq_true, false_iff]
        intro g
        exact h (fits_iff.mpr (g 0 w t rfl rfl))

/-- C61: with an output spec of four declarations for key, probability, table size and priority and then those of the data, the data of a
call is accepted if and only if it has as many columns as declared, each with the declared type and a compatible shape; otherwise the
error is `InvalidArgument`. -/
theorem C61_validate (k : SampleCall) (four sig : List TensorSpec) (h4 : four.length = 4) (data : List Tensor) :
    (k.validate (some (four ++ sig)) data = none ↔ k.AgreesAll sig data) ∧
    (k.validate (some (four ++ sig)) data ≠ none → k.validate (some (four ++ sig)) data = some .invalidArgument) := by
  have hdrop : (four ++ sig).drop 4 = sig := by rw [← h4, List.drop_left]
  have hlen : (four ++ sig).length = 4 + sig.length := by rw [List.length_append, h4]
  unfold SampleCall.validate SampleCall.AgreesAll
  simp only [hdrop, hlen]
  constructor
  · split
    · rename_i h
      simp only [reduceCtorEq, false_iff, not_and]
      intro g
      omega
    · rename_i h
      have : data.length = sig.length := by omega
      split
      · rename_i g
        exact ⟨fun _ => ⟨this, fitAll_iff.mp g⟩, fun _ => rfl⟩
      · rename_i g
        simp only [reduceCtorEq, false_iff, not_and]
        intro _ g'
        exact g (fitAll_iff.mpr g')
  · split
    · exact fun _ => rfl
    · split
      · intro g
        exact absurd rfl g
      · exact fun _ => rfl

/-- C61: whatever a sampler returns, in any run, agrees with its output spec. -/
theorem C61_returned {c : SamplerCfg} {four sig : List TensorSpec} (h4 : four.length = 4) (hs : c.spec = some (four ++ sig)) {now : Int}
    {P : ClientSampler → Event → Prop} {evs : List Event} {v : ClientSampler} (h : Reach c now P evs v) {o : SampleOut} (ho : o ∈ v.log) :
    (∃ e, o = .error e) ∨ ∃ k data, o.data? = some (k, data) ∧ k.AgreesAll sig data := by
  induction h with
  | init => simp [ClientSampler.init] at ho
  | step _ _ hst ih =>
    rcases (Eff.step hst).log with e | ⟨x, o', _, e, _, hr, _⟩
    · exact ih (e ▸ ho)
    · rw [e] at ho
      rcases List.mem_append.mp ho with g | g
      · exact ih g
      · simp only [List.mem_singleton] at g
        subst g
        have hval : ∀ {k : SampleCall} {d}, k.validate c.spec d = none → k.AgreesAll sig d := by
          intro k d hv
          rw [hs] at hv
          exact (C61_validate k four sig h4 d).1.mp hv
        rcases hr with ⟨k, e, _, _, g2⟩ | ⟨s, _, ⟨e, g1, g2⟩ | ⟨n, cols, _, ⟨e, g1, g2⟩ | ⟨g1, g2⟩⟩⟩ |
          ⟨s, _, ⟨e, g1, g2⟩ | ⟨cols, _, ⟨e, g1, g2⟩ | ⟨g1, g2⟩⟩⟩ | ⟨s, _, _, ⟨e, g1, g2⟩ | ⟨rows, last, s', _, ⟨e, g1, g2⟩ | ⟨g1, g2⟩⟩⟩
        · exact .inl ⟨_, g2⟩
        · exact .inl ⟨_, g2⟩
        · exact .inl ⟨_, g2⟩
        · exact .inr ⟨.batched, cols, by rw [g2]; rfl, hval g1⟩
        · exact .inl ⟨_, g2⟩
        · exact .inl ⟨_, g2⟩
        · exact .inr ⟨.trajectory, cols, by rw [g2]; rfl, hval g1⟩
        · exact .inl ⟨_, g2⟩
        · exact .inl ⟨_, g2⟩
        · exact .inr ⟨.timestep, rows, by rw [g2]; rfl, hval g1⟩

/-- C61: the spec of a sampler of a table with a signature is the signature, whenever the signatures could be fetched or were cached and
the timeout is not minus infinity. -/
theorem C61_signature {cached : Option Signatures} {server : Res Signatures} {s : Signatures} {table : String} {sig : List TensorSpec}
    (hf : cached = some s ∨ cached = none ∧ server = .ok s) (hs : s.get? table = some (some sig)) :
    ∃ four, four.length = 4 ∧ newSamplerSpec (fetchSignatures cached false server) table = some (four ++ sig) ∧
      ∀ request spec, newSamplerChecked (fetchSignatures cached false server) table request = .ok spec → spec = some (four ++ sig) := by
  have hfs : fetchSignatures cached false server = .ok s := by
    rcases hf with rfl | ⟨rfl, rfl⟩ <;> rfl
  have hsp : samplerSpec s table = some (infoSpecs ++ sig) := by
    unfold samplerSpec
    rw [hs]
  refine ⟨infoSpecs, rfl, ?_, ?_⟩
  · rw [hfs]
    exact hsp
  · intro request spec h
    rw [hfs] at h
    simp only [newSamplerChecked, hsp] at h
    split at h
    · cases h
    · split at h
      · cases h; rfl
      · cases h

/-- C61 is false when the signature cannot be fetched: any error of the server is ignored (only a timeout is logged), and the sampler
returns whatever comes. -/
theorem C61_error_ignored (e : Code) (table : String) (k : SampleCall) (data : List Tensor) :
    k.validate (newSamplerSpec (fetchSignatures none false (.err e)) table) data = none := rfl

/-- C61 is false for the first four declarations: they are not looked at. -/
theorem C61_info_false (k : SampleCall) (four four' sig : List TensorSpec) (h4 : four.length = 4) (h4' : four'.length = 4) (data : List Tensor) :
    k.validate (some (four ++ sig)) data = k.validate (some (four' ++ sig)) data := by
  unfold SampleCall.validate
  simp only [List.length_append, h4, h4']
  rw [show (four ++ sig).drop 4 = sig by rw [← h4, List.drop_left], show (four' ++ sig).drop 4 = sig by rw [← h4', List.drop_left]]

/-- C70, partial: requested types are kept: if `NewSampler` accepts a request for types and shapes, the columns of the data have the types
that were requested, and there are as many. -/
theorem C70_dtypes_partial {sigs : Res Signatures} {table : String} {four request : List TensorSpec} (h4 : four.length = 4)
    {spec : List TensorSpec} (hn : newSamplerChecked sigs table (four ++ request) = .ok (some spec)) {k : SampleCall} {data : List Tensor}
    (hv : k.validate (some spec) data = none) :
    data.length = request.length ∧ ∀ (i : Nat) (r : TensorSpec) (t : Tensor), request[i]? = some r → data[i]? = some t → t.dtype = r.dtype := by
  unfold newSamplerChecked at hn
  split at hn
  · cases hn
  · cases hn
  · rename_i s _
    split at hn
    · cases hn
      have := (C61_validate k four request h4 data).1.mp hv
      refine ⟨this.1, ?_⟩
      intro i r t hr ht
      have g := this.2 i r t hr ht
      unfold SampleCall.Agrees at g
      cases k with
      | batched =>
        obtain ⟨_, _, _, g⟩ := g
        exact g.1.symm
      | timestep => exact g.1.symm
      | trajectory => exact g.1.symm
    · rename_i specs hsp
      split at hn
      · cases hn
      · rename_i hlen
        split at hn
        · rename_i hfit
          cases hn
          have hsig : ∃ sig, spec = infoSpecs ++ sig := by
            unfold samplerSpec at hsp
            split at hsp
            · cases hsp
            · cases hsp
            · rename_i sig _
              cases hsp
              exact ⟨sig, rfl⟩
          obtain ⟨sig, rfl⟩ := hsig
          have hag := (C61_validate k infoSpecs sig rfl data).1.mp hv
          have hl : sig.length = request.length := by
            simp only [List.length_append, h4] at hlen
            have : infoSpecs.length = 4 := rfl
            omega
          refine ⟨hag.1.trans hl, ?_⟩
          have hreq : ∀ (a b : List TensorSpec), requestFits a b = true → ∀ (i : Nat) (x y : TensorSpec), a[i]? = some x → b[i]? = some y → x.dtype = y.dtype := by
            intro a
            induction a with
            | nil => intro b _ i x y hx; simp at hx
            | cons w ws ih =>
              intro b hb i x y hx hy
              cases b with
              | nil => simp at hy
              | cons r rs =>
                unfold requestFits at hb
                split at hb
                · cases hb
                · rename_i g
                  cases i with
                  | zero =>
                    simp only [List.getElem?_cons_zero, Option.some.injEq] at hx hy
                    subst hx
                    subst hy
                    exact Classical.byContradiction fun e => g (.inl e)
                  | succ i => exact ih rs hb i x y hx hy
          intro i r t hr ht
          obtain ⟨w, hw⟩ : ∃ w, sig[i]? = some w := by
            have : i < sig.length := by
              rw [hl]
              exact (List.getElem?_eq_some_iff.mp hr).1
            exact ⟨_, List.getElem?_eq_getElem this⟩
          have h1 : w.dtype = r.dtype := by
            refine hreq _ _ hfit (4 + i) w r ?_ ?_
            · rw [List.getElem?_append_right (by show 4 ≤ 4 + i; omega)]
              show sig[4 + i - 4]? = _
              rw [Nat.add_sub_cancel_left]
              exact hw
            · rw [List.getElem?_append_right (by omega), h4, Nat.add_sub_cancel_left]
              exact hr
          have g := hag.2 i w t hw ht
          unfold SampleCall.Agrees at g
          cases k with
          | batched =>
            obtain ⟨_, _, _, g⟩ := g
            exact g.1.symm.trans h1
          | timestep => exact g.1.symm.trans h1
          | trajectory => exact g.1.symm.trans h1
        · cases hn

namespace OutputSpecDemo
open SampleDemo

/-- The signature of the table: any number of rows of two. -/
def sig : List TensorSpec := [⟨.int32, some [none, some 2]⟩]
def sigs : Signatures := AMap.empty.insert "t" (some sig)
/-- The request: three rows of two. -/
def request : List TensorSpec := infoSpecs ++ [⟨.int32, some [some 3, some 2]⟩]
def data : List Tensor := [Tensor.stack .int32 [2] [row 1, row 2, row 3, row 4]]

/-- The sampled data has four rows. -/
example : data = [⟨.int32, [4, 2], [1, 2, 2, 3, 3, 4, 4, 5]⟩] := by decide

end OutputSpecDemo
open OutputSpecDemo

/-- C70 is false for shapes: the request is compared with the signature of the table and then forgotten, and both may be compatible with it
without being compatible with each other. Three rows are requested and four are returned. -/
theorem C70_shapes_false : ∃ spec, newSamplerChecked (.ok sigs) "t" request = .ok (some spec) ∧
    SampleCall.trajectory.validate (some spec) data = none ∧ SampleCall.trajectory.validate (some request) data = some .invalidArgument :=
  ⟨infoSpecs ++ sig, by decide, by decide, by decide⟩

/-- The hypotheses are met: data that agrees is accepted, a wrong type, a wrong shape and a wrong number of columns are refused. -/
example : SampleCall.trajectory.validate (some (infoSpecs ++ sig)) data = none := by decide
example : SampleCall.timestep.validate (some (infoSpecs ++ sig)) [SampleDemo.row 1] = some .invalidArgument := by decide
example : SampleCall.batched.validate (some (infoSpecs ++ [⟨.int32, some [some 2]⟩])) data = none := by decide
example : SampleCall.trajectory.validate (some (infoSpecs ++ sig)) (data ++ data) = some .invalidArgument := by decide
example : SampleCall.trajectory.validate (some (infoSpecs ++ [⟨.float, none⟩])) data = some .invalidArgument := by decide
example := C70_dtypes_partial (sigs := .ok sigs) (table := "t") (four := infoSpecs) rfl (request := [⟨.int32, some [some 3, some 2]⟩])
  (spec := infoSpecs ++ sig) (by decide) (k := .trajectory) (data := data) (by decide)
example := C61_signature (cached := none) (server := .ok sigs) (s := sigs) (table := "t") (sig := sig) (.inr ⟨rfl, rfl⟩) (by decide)

end Verif
