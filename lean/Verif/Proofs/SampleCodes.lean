import Verif.Model.Sample
/-
The codes of errors that the decoding of a sample can give.
-/
namespace Verif

/-- The codes that decoding gives. -/
def Code.ofDecoding (e : Code) : Prop := e = .invalidArgument ∨ e = .internal ∨ e = .dataLoss ∨ e = .failedPrecondition

theorem Code.ofDecoding.not_range {e : Code} (h : e.ofDecoding) : e ≠ .outOfRange := by
  rcases h with rfl | rfl | rfl | rfl <;> decide

theorem Code.ofDecoding.not_deadline {e : Code} (h : e.ofDecoding) : e ≠ .deadlineExceeded := by
  rcases h with rfl | rfl | rfl | rfl <;> decide

theorem Code.ofDecoding.not_unavailable {e : Code} (h : e.ofDecoding) : e ≠ .unavailable := by
  rcases h with rfl | rfl | rfl | rfl <;> decide

theorem subSlice_code {t : Tensor} {i : Nat} {e : Code} : t.subSlice i ≠ .err e := by
  unfold Tensor.subSlice
  split
  · simp
  · split <;> simp

theorem slice_code {t : Tensor} {i j : Nat} {e : Code} : t.slice i j ≠ .err e := by
  unfold Tensor.slice
  split
  · simp
  · split <;> simp

theorem concat_code {ts : List Tensor} {e : Code} (h : Tensor.concat ts = .err e) : e.ofDecoding := by
  unfold Tensor.concat at h
  split at h
  · cases h; exact .inl rfl
  · split at h
    · cases h; exact .inl rfl
    · split at h
      · cases h; exact .inl rfl
      · split at h <;> cases h

namespace Sample

theorem takeRow_code {c : List ColChunk} {e : Code} : takeRow c ≠ .err e := by
  unfold takeRow
  split
  · simp
  · split
    · simp
    · rename_i g
      exact absurd g subSlice_code
    · simp

theorem takeRows_code {cs : List (List ColChunk)} {e : Code} : takeRows cs ≠ .err e := by
  induction cs with
  | nil => simp [takeRows]
  | cons c cs ih =>
    unfold takeRows
    split
    · rename_i g
      exact absurd g takeRow_code
    · simp
    · split
      · rename_i e' g
        intro g2
        cases g2
        exact ih g
      · simp
      · simp

theorem deliver_code {s : Sample} {e : Code} (h : s.deliver = .err e) : e.ofDecoding := by
  unfold deliver at h
  split at h
  · cases h
  · cases h; exact .inl rfl
  · split at h
    · cases h
    · rename_i g
      unfold nextTimestep at g
      split at g
      · cases g
      · split at g
        · cases g
        · cases g
        · split at g
          · rename_i g2
            exact absurd g2 takeRows_code
          · cases g
          · cases g
    · cases h

theorem unpackColumns_code {cs : List (List ColChunk)} {e : Code} (h : unpackColumns cs = .err e) : e.ofDecoding := by
  induction cs with
  | nil => simp [unpackColumns] at h
  | cons c cs ih =>
    unfold unpackColumns at h
    split at h
    · rename_i g
      cases h
      unfold unpackColumn at g
      split at g
      · cases g
      · exact concat_code g
    · cases h
    · split at h
      · rename_i g
        cases h
        exact ih g
      · cases h
      · cases h

theorem asBatched_code {s : Sample} {e : Code} (h : s.asBatchedTimesteps = .err e) : e.ofDecoding := by
  unfold asBatchedTimesteps at h
  split at h
  · cases h; exact .inr (.inr (.inl rfl))
  · split at h
    · cases h
    · cases h; exact .inr (.inr (.inr rfl))
    · split at h
      · cases h
      · rename_i g
        cases h
        exact unpackColumns_code g
      · cases h

theorem squeezeColumns_code {qs : List Bool} {ts : List Tensor} {e : Code} (h : squeezeColumns qs ts = .err e) : e.ofDecoding := by
  induction qs generalizing ts with
  | nil => simp [squeezeColumns] at h
  | cons q qs ih =>
    cases ts with
    | nil => simp [squeezeColumns] at h
    | cons t ts =>
      unfold squeezeColumns at h
      split at h
      · rename_i g
        cases h
        split at g
        · unfold squeezeColumn at g
          split at g
          · cases g
          · split at g
            · cases g; exact .inr (.inl rfl)
            · exact absurd g subSlice_code
        · cases g
      · cases h
      · split at h
        · rename_i g
          cases h
          exact ih g
        · cases h
        · cases h

theorem asTrajectory_code {s : Sample} {e : Code} (h : s.asTrajectory = .err e) : e.ofDecoding := by
  unfold asTrajectory at h
  split at h
  · cases h; exact .inr (.inr (.inl rfl))
  · split at h
    · exact squeezeColumns_code h
    · rename_i g
      cases h
      exact unpackColumns_code g
    · cases h

theorem new_code {info : SampleInfo} {cc : List (List Tensor)} {sq : List Bool} {e : Code} : Sample.new info cc sq ≠ .err e := by
  unfold Sample.new
  split
  · simp
  · simp
  · simp only
    split
    · simp
    · simp
    · split <;> simp

end Sample

theorem unpackSlice_code {c : ChunkData} {s : Slice} {e : Code} (h : unpackSlice c s = .err e) : e.ofDecoding := by
  unfold unpackSlice unpackChunkColumnAndSlice at h
  split at h
  · split at h
    · cases h
    · split at h
      · cases h; exact .inl rfl
      · split at h
        · cases h
        · exact absurd h slice_code
  · rename_i g
    cases h
    unfold unpackChunkColumn at g
    split at g
    · cases g; exact .inl rfl
    · split at g
      · cases g; exact .inl rfl
      · split at g
        · rename_i t _ _
          exfalso
          revert g
          unfold Tensor.deltaEncode
          repeat' split
          all_goals simp only [reduceCtorEq, not_false_eq_true, false_implies]
          all_goals (split <;> simp)
        · cases g
  · cases h

theorem unpackSlices_code {m : AMap Key ChunkData} {ss : List Slice} {e : Code} (h : unpackSlices m ss = .err e) : e.ofDecoding := by
  induction ss with
  | nil => simp [unpackSlices] at h
  | cons s ss ih =>
    unfold unpackSlices at h
    split at h
    · cases h
    · split at h
      · rename_i g
        cases h
        exact unpackSlice_code g
      · cases h
      · split at h
        · rename_i g
          cases h
          exact ih g
        · cases h
        · cases h

theorem unpackTraj_code {m : AMap Key ChunkData} {ss : FlatTraj} {e : Code} (h : unpackTraj m ss = .err e) : e.ofDecoding := by
  induction ss with
  | nil => simp [unpackTraj] at h
  | cons s ss ih =>
    unfold unpackTraj at h
    split at h
    · rename_i g
      cases h
      exact unpackSlices_code g
    · cases h
    · split at h
      · rename_i g
        cases h
        exact ih g
      · cases h
      · cases h

theorem takeSlices_code {st : AMap Key ChunkData × (Key → Nat)} {ss : List Slice} {e : Code} (h : takeSlices st ss = .err e) :
    e.ofDecoding := by
  induction ss generalizing st with
  | nil => simp [takeSlices] at h
  | cons s ss ih =>
    unfold takeSlices at h
    split at h
    · cases h; exact .inr (.inl rfl)
    · split at h
      · rename_i g
        cases h
        exact unpackSlice_code g
      · cases h
      · simp only at h
        split at h
        · rename_i g
          cases h
          exact ih g
        · cases h
        · cases h

theorem takeTraj_code {st : AMap Key ChunkData × (Key → Nat)} {ss : FlatTraj} {e : Code} (h : takeTraj st ss = .err e) : e.ofDecoding := by
  induction ss generalizing st with
  | nil => simp [takeTraj] at h
  | cons s ss ih =>
    unfold takeTraj at h
    split at h
    · rename_i g
      cases h
      exact takeSlices_code g
    · cases h
    · split at h
      · rename_i g
        cases h
        exact ih g
      · cases h
      · cases h

theorem asSampleLocal_code {x : SampledItem} {e : Code} (h : asSampleLocal x = .err e) : e.ofDecoding := by
  unfold asSampleLocal at h
  split at h
  · rename_i g
    cases h
    exact unpackTraj_code g
  · cases h
  · exact absurd h Sample.new_code

theorem asSampleGrpc_code {es : List Entry} {e : Code} (h : asSampleGrpc es = .err e) : e.ofDecoding := by
  unfold asSampleGrpc at h
  split at h
  · cases h
  · simp only at h
    split at h
    · rename_i g
      cases h
      exact takeTraj_code g
    · cases h
    · exact absurd h Sample.new_code

end Verif
