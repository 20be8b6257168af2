import Verif.Spec.Chunker
namespace Verif
namespace AutoTuned

/-- What every object of the class satisfies. -/
structure WF (a : AutoTuned) : Prop where
  pos : 1 ≤ a.maxLen
  le : a.maxLen ≤ a.keep
  items : a.items.length ≤ numItems
  chunks : a.chunks.length ≤ numChunks

theorem new_wf {keep : Int} (h : 1 ≤ keep) (w : Rat) (d : Bool) : (new keep w d).WF := ⟨by simp [new], h, by simp [new], by simp [new]⟩

theorem adjust_wf {a : AutoTuned} (h : a.WF) (s : Score) : (a.adjust s).WF ∧ (a.adjust s).keep = a.keep ∧
    (a.adjust s).delta = a.delta ∧ (a.adjust s).weight = a.weight ∧
    a.maxLen - 1 ≤ (a.adjust s).maxLen ∧ (a.adjust s).maxLen ≤ a.maxLen + 2 := by
  obtain ⟨h1, h2, h3, h4⟩ := h
  unfold adjust
  split
  · refine ⟨⟨?_, ?_, h3, h4⟩, rfl, rfl, rfl, ?_, ?_⟩ <;> simp only <;> omega
  · simp only
    generalize (if s.avgLength - (a.maxLen : Rat) < 0 then -(s.avgLength - (a.maxLen : Rat)) else s.avgLength - (a.maxLen : Rat)) = e
    split
    · exact ⟨⟨h1, h2, h3, h4⟩, rfl, rfl, rfl, by omega, by omega⟩
    · generalize hd : (if decide (s.cost < a.prev.cost) = decide (a.prev.avgLength < s.avgLength) then (2 : Int) else -1) = diff
      have : diff = 2 ∨ diff = -1 := by split at hd <;> omega
      split
      · refine ⟨⟨?_, ?_, h3, h4⟩, rfl, rfl, rfl, ?_, ?_⟩ <;> simp only <;> omega
      · exact ⟨⟨h1, h2, h3, h4⟩, rfl, rfl, rfl, by omega, by omega⟩

theorem finalized_wf {a : AutoTuned} (h : a.WF) {refs : List ChunkObs} (hr : refs ≠ []) :
    ∃ a', a.onItemFinalized refs = some a' ∧ a'.WF ∧ a'.keep = a.keep ∧ a'.delta = a.delta ∧ a'.weight = a.weight ∧
      a.maxLen - 1 ≤ a'.maxLen ∧ a'.maxLen ≤ a.maxLen + 2 := by
  unfold onItemFinalized
  rw [if_neg hr]
  generalize hb : (a.pushItem refs).pushChunks refs = b
  have h1 : b.items.length ≤ numItems := by
    subst hb
    simp only [pushChunks, pushItem]
    have := h.items
    split <;> simp at * <;> omega
  have h2 : b.chunks.length ≤ numChunks := by
    subst hb
    simp only [pushChunks, List.length_drop, numChunks]
    omega
  have hk : b.keep = a.keep ∧ b.delta = a.delta ∧ b.weight = a.weight ∧ b.maxLen = a.maxLen := by
    subst hb
    exact ⟨rfl, rfl, rfl, rfl⟩
  have hb' : b.WF := ⟨by rw [hk.2.2.2]; exact h.pos, by rw [hk.2.2.2, hk.1]; exact h.le, h1, h2⟩
  simp only
  split
  · exact ⟨b, rfl, hb', hk.1, hk.2.1, hk.2.2.1, by omega, by omega⟩
  · have hi : b.items.length = numItems ∧ b.chunks.length = numChunks := by omega
    simp only [reduce, hi, and_self, if_true]
    have hc : WF { b with
      items := []
      chunks := [] } := ⟨hb'.pos, hb'.le, by simp, by simp⟩
    obtain ⟨g1, g2, g3, g4, g5, g6⟩ := adjust_wf hc ⟨((b.items ++ b.chunks).map Statistic.avgLength).sum / ((numItems + numChunks : Nat) : Rat),
      (b.chunks.map fun s => s.bytesPerStep / ((numChunks : Nat) : Rat)).sum + (b.items.map fun s => s.bytesPerStep / ((numItems : Nat) : Rat)).sum * b.weight⟩
    exact ⟨_, rfl, g1, g2.trans hk.1, g3.trans hk.2.1, g4.trans hk.2.2.1, by rw [← hk.2.2.2]; exact g5, by rw [← hk.2.2.2]; exact g6⟩

end AutoTuned

namespace ChunkerOpts

/-- Valid options, in a state that occurs. -/
structure Good (o : ChunkerOpts) : Prop where
  pos : 1 ≤ o.maxLen
  le : o.maxLen ≤ o.keep
  auto : ∀ a, o = .auto a → a.WF

theorem good_of {o : ChunkerOpts} (h : o.validate = .ok ()) (hf : Chunker.Op.Valid (.configure o)) : o.Good := by
  have h' : 1 ≤ o.maxLen ∧ o.maxLen ≤ o.keep := by
    unfold validate at h
    split at h
    · simp at h
    · split at h
      · simp at h
      · split at h
        · simp at h
        · omega
  refine ⟨h'.1, h'.2, ?_⟩
  rintro a rfl
  exact ⟨h'.1, h'.2, by simp [hf.1], by simp [hf.2]⟩

theorem finalized_good {o : ChunkerOpts} (h : o.Good) {refs : List ChunkObs} (hr : refs ≠ []) :
    ∃ o', o.onItemFinalized refs = some o' ∧ o'.Good ∧ o'.keep = o.keep ∧ o'.delta = o.delta := by
  cases o with
  | constant m k d => exact ⟨_, rfl, h, rfl, rfl⟩
  | auto a =>
    obtain ⟨a', h1, h2, h3, h4, _⟩ := AutoTuned.finalized_wf (h.auto a rfl) hr
    refine ⟨.auto a', by simp [onItemFinalized, h1], ⟨h2.pos, h2.le, ?_⟩, h3, h4⟩
    intro b hb
    cases hb
    exact h2

end ChunkerOpts
end Verif
