import Verif.Proofs.TrajMerge
/-
Which columns have chunkers, and how the episode and the step change.
-/
namespace Verif
namespace TrajWriter

theorem onAll_none (f : Nat → Chunker → Chunker × Res Unit) {i : Nat} : ∀ (is : List Nat) {m : AMap Nat Chunker}, m.get? i = none →
    (onAll f is m).1.get? i = none
  | [], _, h => h
  | j :: is, m, h => by
    unfold onAll
    cases hj : m.get? j with
    | none => exact onAll_none f is h
    | some c =>
      have hins : ∀ c' : Chunker, (m.insert j c').get? i = none := by
        intro c'
        rw [AMap.get?_insert, if_neg (by rintro rfl; rw [h] at hj; cases hj), h]
      simp only
      rcases f j c with ⟨c', _ | _ | _⟩
      · exact onAll_none f is (hins c')
      · exact hins c'
      · exact hins c'

theorem forceRefs_none {i : Nat} : ∀ (refs : List Ref) {w : TrajWriter}, w.chunkers.get? i = none → (w.forceRefs refs).1.chunkers.get? i = none
  | [], _, h => h
  | r :: refs, w, h => by
    unfold forceRefs
    split
    · exact forceRefs_none refs h
    · cases hj : w.chunkers.get? r.col with
      | none => exact h
      | some c =>
        have hins : ∀ c' : Chunker, (w.chunkers.insert r.col c').get? i = none := by
          intro c'
          rw [AMap.get?_insert, if_neg (by rintro rfl; rw [h] at hj; cases hj), h]
        simp only
        rcases c.flush with ⟨c', _ | _ | _⟩
        · exact forceRefs_none refs (w := { w with chunkers := w.chunkers.insert r.col c' }) (hins c')
        · exact hins c'
        · exact hins c'

theorem addChunkers_none {i : Nat} : ∀ (data : List (Option Tensor)) {w : TrajWriter} {j : Nat}, w.chunkers.get? i = none → j + data.length ≤ i →
    (w.addChunkers j data).1.chunkers.get? i = none
  | [], _, _, h, _ => h
  | none :: data, w, j, h, hi => by
    rw [addChunkers]
    exact addChunkers_none data h (by simp only [List.length_cons] at hi; omega)
  | some t :: data, w, j, h, hi => by
    simp only [List.length_cons] at hi
    unfold addChunkers
    cases w.chunkers.get? j with
    | some c => exact addChunkers_none data h (by omega)
    | none =>
      simp only
      cases Chunker.new t.dtype t.shape ((w.overrides.get? j).getD w.opts).clone (w.colGen j) with
      | ok c =>
        refine addChunkers_none data (w := { w with chunkers := w.chunkers.insert j c }) ?_ (by omega)
        simp only
        rw [AMap.get?_insert, if_neg (by omega), h]
      | err e => exact h
      | died => exact h

theorem appendAll_none {i : Nat} : ∀ (data : List (Option Tensor)) {w : TrajWriter} {j : Nat}, w.chunkers.get? i = none →
    (w.appendAll j data).1.chunkers.get? i = none
  | [], _, _, h => h
  | none :: data, w, j, h => by
    have := appendAll_none data (j := j + 1) h
    unfold appendAll
    rcases hx : w.appendAll (j + 1) data with ⟨w', _ | _ | _⟩ <;> rw [hx] at this <;> exact this
  | some t :: data, w, j, h => by
    unfold appendAll
    cases hj : w.chunkers.get? j with
    | none => exact h
    | some c =>
      have hins : ∀ c' : Chunker, (w.chunkers.insert j c').get? i = none := by
        intro c'
        rw [AMap.get?_insert, if_neg (by rintro rfl; rw [h] at hj; cases hj), h]
      simp only
      rcases c.append t w.episode w.step with ⟨c', _ | _ | _⟩
      · simp only
        have := appendAll_none data (w := { w with chunkers := w.chunkers.insert j c' }) (j := j + 1) (hins c')
        rcases hx : appendAll { w with chunkers := w.chunkers.insert j c' } (j + 1) data with ⟨w', _ | _ | _⟩ <;> rw [hx] at this <;> exact this
      · exact hins c'
      · exact hins c'

/-- There is a reference for each tensor. -/
theorem appendAll_some : ∀ (data : List (Option Tensor)) {w : TrajWriter} {j : Nat} {refs : List (Option Ref)},
    (w.appendAll j data).2 = .ok refs → refs.map Option.isSome = data.map Option.isSome
  | [], w, j, refs, h => by simp only [appendAll, Res.ok.injEq] at h; subst h; rfl
  | none :: data, w, j, refs, h => by
    unfold appendAll at h
    rcases hx : w.appendAll (j + 1) data with ⟨w', rs | _ | _⟩ <;> rw [hx] at h
    · simp only [Res.ok.injEq] at h
      subst h
      have := appendAll_some data (refs := rs) (by rw [hx])
      simp [this]
    · cases h
    · cases h
  | some t :: data, w, j, refs, h => by
    unfold appendAll at h
    cases hj : w.chunkers.get? j with
    | none => rw [hj] at h; cases h
    | some c =>
      rw [hj] at h
      simp only at h
      rcases hc : c.append t w.episode w.step with ⟨c', _ | _ | _⟩ <;> rw [hc] at h
      · simp only at h
        rcases hx : appendAll { w with chunkers := w.chunkers.insert j c' } (j + 1) data with ⟨w', rs | _ | _⟩ <;> rw [hx] at h
        · simp only [Res.ok.injEq] at h
          subst h
          have := appendAll_some data (refs := rs) (by rw [hx])
          simp [this]
        · cases h
        · cases h
      · cases h
      · cases h

theorem append_some {w : TrajWriter} {data : List (Option Tensor)} {inc : Bool} {refs : List (Option Ref)} (h : (w.append data inc).2 = .ok refs) :
    refs.map Option.isSome = data.map Option.isSome := by
  unfold append at h
  split at h
  · cases h
  · rcases hx : w.addChunkers 0 data with ⟨w1, _ | _ | _⟩ <;> rw [hx] at h
    · simp only at h
      rcases hy : w1.appendAll 0 data with ⟨w2, rs | _ | _⟩ <;> rw [hy] at h
      · simp only [Res.ok.injEq] at h
        subst h
        exact appendAll_some data (by rw [hy])
      · cases h
      · cases h
    · cases h
    · cases h

theorem append_none {w : TrajWriter} {data : List (Option Tensor)} {inc : Bool} {i : Nat} (h : w.chunkers.get? i = none) (hi : data.length ≤ i) :
    (w.append data inc).1.chunkers.get? i = none := by
  unfold append
  split
  · exact h
  · have h1 := addChunkers_none data (j := 0) h (by omega)
    rcases hx : w.addChunkers 0 data with ⟨w1, _ | _ | _⟩ <;> rw [hx] at h1
    · simp only
      have h2 := appendAll_none data (j := 0) h1
      simp only at h2
      rcases hy : w1.appendAll 0 data with ⟨w2, rs | _ | _⟩ <;> rw [hy] at h2 <;> exact h2
    · exact h1
    · exact h1

/-- Only `Append` makes chunkers, for the columns of the data. -/
theorem handle_none {w : TrajWriter} {e : Event} {i : Nat} (h : w.chunkers.get? i = none) (hi : ∀ data inc, e = .append data inc → data.length ≤ i) :
    (w.handle e).1.chunkers.get? i = none := by
  cases e with
  | append data inc => exact append_none h (hi data inc rfl)
  | createItem t p cols =>
    simp only [handle]
    rcases createItem_cases w t p cols with ⟨r, he, _⟩ | ⟨r, he, _⟩ | ⟨_, _, _, he⟩ <;> rw [he] <;> exact h
  | flushBegin k => exact forceRefs_none _ h
  | flushEnd k => simp only [handle]; cases w.flushResult k <;> exact h
  | episodeBegin =>
    simp only [handle]
    cases w.unrecoverable with
    | some e => exact h
    | none => exact forceRefs_none _ h
  | episodeEnd clear =>
    simp only [handle]
    rcases w.flushResult 0 with _ | ⟨_ | _ | _⟩
    · exact h
    · have := onAll_none (fun _ c => if clear then (c.reset, .ok ()) else c.flush) w.chunkers.keys h
      simp only [endEpisode]
      rcases hx : onAll (fun _ c => if clear then (c.reset, .ok ()) else c.flush) w.chunkers.keys w.chunkers with ⟨m', _ | _ | _⟩ <;>
        rw [hx] at this <;> exact this
    · exact h
    · exact h
  | configure col o =>
    simp only [handle, configure]
    cases o.validate with
    | err e => exact h
    | died => exact h
    | ok _ =>
      simp only
      cases hc : w.chunkers.get? col with
      | none => exact h
      | some c =>
        simp only
        rw [AMap.get?_insert, if_neg (by rintro rfl; rw [h] at hc; cases hc), h]
  | close => exact h
  | worker inp =>
    simp only [handle]
    rcases (workerStep_frame w inp).2.2.2.2.2.2 with ⟨h1, _⟩ | ⟨it, _, h1⟩ <;> rw [h1]
    · exact h
    · exact onAll_none _ _ h
  | confirm keys => exact h

theorem workerStep_clock (w : TrajWriter) (inp : Input) : (w.workerStep inp).1.episode = w.episode ∧ (w.workerStep inp).1.step = w.step := by
  unfold workerStep
  cases hp : w.phase with
  | start =>
    simp only
    cases w.unrecoverable with
    | some e => simp
    | none => simp only; split <;> simp
  | fetch =>
    simp only
    split
    · simp
    · cases w.queue <;> simp
  | chunks it rest =>
    cases rest with
    | nil => simp
    | cons r rest =>
      simp only [sendChunk]
      cases w.chunkOf r with
      | none => simp
      | some ch => simp only; split <;> simp
  | check it =>
    simp only [checkItem]
    split
    · simp
    · split <;> simp
  | waiting => simp
  | finalize it => simp
  | send it => simp
  | sent => simp
  | sendFailed it => simp
  | finish => simp
  | ended status =>
    simp only [endStream]
    split
    · simp
    · rcases status with _ | _ | _ | _ | _ | _ | _ | _ | _ | _ | _ <;> simp
  | stopped => simp

/-- The episode changes when `EndEpisode` succeeds, and the step then and in a successful `Append`. -/
theorem handle_clock (w : TrajWriter) (e : Event) :
    (∃ data inc refs, e = .append data inc ∧ (w.handle e).2 = .ok (.refs refs) ∧ (w.handle e).1.episode = w.episode ∧
      (w.handle e).1.step = w.step + if inc then 1 else 0) ∨
    (∃ clear, e = .episodeEnd clear ∧ (w.handle e).2 = .ok .done ∧ (w.handle e).1.episode = w.gen w.drawn ∧ (w.handle e).1.step = 0 ∧
      (w.handle e).1.drawn = w.drawn + 1) ∨
    ((w.handle e).1.episode = w.episode ∧ (w.handle e).1.step = w.step ∧ (∀ refs, (w.handle e).2 ≠ .ok (.refs refs)) ∧
      ∀ clear, e = .episodeEnd clear → (w.handle e).2 ≠ .ok .done) := by
  cases e with
  | append data inc =>
    simp only [handle]
    unfold append
    split
    · right; right; simp [Reply.of]
    · obtain ⟨m, hm⟩ := addChunkers_frame data w 0
      rcases hx : w.addChunkers 0 data with ⟨w1, _ | _ | _⟩ <;> rw [hx] at hm <;> simp only at hm <;> subst hm
      · simp only
        obtain ⟨m2, hm2⟩ := appendAll_frame data { w with chunkers := m } 0
        rcases hy : appendAll { w with chunkers := m } 0 data with ⟨w2, rs | _ | _⟩ <;> rw [hy] at hm2 <;> simp only at hm2 <;> subst hm2
        · left
          refine ⟨data, inc, rs, rfl, rfl, rfl, ?_⟩
          cases inc <;> simp
        · right; right; simp [Reply.of]
        · right; right; simp [Reply.of]
      · right; right; simp [Reply.of]
      · right; right; simp [Reply.of]
  | createItem t p cols =>
    right; right
    simp only [handle]
    rcases createItem_cases w t p cols with ⟨r, he, _⟩ | ⟨r, he, _⟩ | ⟨_, _, _, he⟩ <;> rw [he]
    · cases r <;> simp [Reply.of]
    · cases r <;> simp [Reply.of]
    · simp [Reply.of]
  | flushBegin k =>
    right; right
    obtain ⟨m, hm⟩ := forceRefs_frame ((w.queue.take ((w.queue.length : Int) - k).toNat).flatMap WItem.refs) w
    simp only [handle, force, hm]
    refine ⟨trivial, trivial, ?_, by simp⟩
    rcases (w.forceRefs ((w.queue.take ((w.queue.length : Int) - k).toNat).flatMap WItem.refs)).2 with _ | _ | _ <;> simp [Reply.of]
  | flushEnd k =>
    right; right
    simp only [handle]
    rcases w.flushResult k with _ | ⟨_ | _ | _⟩ <;> simp [Reply.of]
  | episodeBegin =>
    right; right
    simp only [handle]
    cases w.unrecoverable with
    | some e => simp
    | none =>
      obtain ⟨m, hm⟩ := forceRefs_frame ((w.queue.take ((w.queue.length : Int) - 0).toNat).flatMap WItem.refs) w
      simp only [force, hm]
      refine ⟨trivial, trivial, ?_, by simp⟩
      rcases (w.forceRefs ((w.queue.take ((w.queue.length : Int) - 0).toNat).flatMap WItem.refs)).2 with _ | _ | _ <;> simp [Reply.of]
  | episodeEnd clear =>
    simp only [handle]
    rcases w.flushResult 0 with _ | ⟨_ | _ | _⟩
    · right; right; simp
    · unfold endEpisode
      rcases onAll (fun _ c => if clear then (c.reset, .ok ()) else c.flush) w.chunkers.keys w.chunkers with ⟨m', _ | _ | _⟩
      · right; left; exact ⟨clear, rfl, rfl, rfl, rfl, rfl⟩
      · right; right; simp [Reply.of]
      · right; right; simp [Reply.of]
    · right; right; simp [Reply.of]
    · right; right; simp [Reply.of]
  | configure col o =>
    right; right
    simp only [handle, configure]
    cases o.validate with
    | err e => simp [Reply.of]
    | died => simp [Reply.of]
    | ok _ =>
      simp only
      cases w.chunkers.get? col with
      | none => simp [Reply.of]
      | some c => 
        refine ⟨rfl, rfl, ?_, by simp⟩
        simp only
        rcases (c.applyConfig o.clone).2 with _ | _ | _ <;> simp [Reply.of]
  | close => right; right; simp [handle]
  | worker inp =>
    right; right
    simp only [handle]
    refine ⟨(workerStep_clock w inp).1, (workerStep_clock w inp).2, ?_, by simp⟩
    rcases (w.workerStep inp).2 with _ | _ | _ <;> simp [Reply.of]
  | confirm keys => right; right; simp [handle]

end TrajWriter
end Verif
