import Verif.Proofs.TrajRun
/-
The chunks that a trajectory writer has sent: each is one of its chunks, so that the keys tell them apart.
-/
namespace Verif
namespace TrajWriter
open Chunker (Row)

/-- All chunks in requests are chunks of the writer. -/
def SentKnown (w : TrajWriter) : Prop := ∀ s ∈ w.streams, ∀ m ∈ s, ∀ ch ∈ m.chunks, w.Known ch

/-- A chunk in a request was there before, or is in the request that is being filled, or is a chunk of the writer. -/
theorem worker_sent (w : TrajWriter) (inp : Input) {s : List Msg} (hs : s ∈ (w.workerStep inp).1.streams) {m : Msg} (hm : m ∈ s) {ch : ChunkData}
    (hc : ch ∈ m.chunks) : (∃ s' ∈ w.streams, ∃ m' ∈ s', ch ∈ m'.chunks) ∨ ch ∈ w.request ∨ w.Known ch := by
  have same : ∀ w' : TrajWriter, s ∈ w'.streams → w'.past = w.past → w'.msgs = w.msgs → (∃ s' ∈ w.streams, ∃ m' ∈ s', ch ∈ m'.chunks) := by
    intro w' h e1 e2
    unfold streams at h ⊢
    rw [e1, e2] at h
    exact ⟨s, h, m, hm, hc⟩
  have fresh : ∀ w' : TrajWriter, s ∈ w'.streams → w'.past = w.past → w'.msgs = [] → (∃ s' ∈ w.streams, ∃ m' ∈ s', ch ∈ m'.chunks) := by
    intro w' h e1 e2
    unfold streams at h ⊢
    rw [e1, e2] at h
    rcases List.mem_append.mp h with h | h
    · exact ⟨s, List.mem_append_left _ h, m, hm, hc⟩
    · simp only [List.mem_singleton] at h
      subst h
      simp at hm
  have more : ∀ (w' : TrajWriter) (x : Msg), s ∈ w'.streams → w'.past = w.past → w'.msgs = w.msgs ++ [x] →
      (∃ s' ∈ w.streams, ∃ m' ∈ s', ch ∈ m'.chunks) ∨ ch ∈ x.chunks := by
    intro w' x h e1 e2
    unfold streams at h ⊢
    rw [e1, e2] at h
    rcases List.mem_append.mp h with h | h
    · exact .inl ⟨s, List.mem_append_left _ h, m, hm, hc⟩
    · simp only [List.mem_singleton] at h
      subst h
      rcases List.mem_append.mp hm with h | h
      · exact .inl ⟨w.msgs, List.mem_append_right _ (by simp), m, h, hc⟩
      · simp only [List.mem_singleton] at h
        subst h
        exact .inr hc
  unfold workerStep at hs
  split at hs
  · split at hs
    · exact .inl (same _ hs rfl rfl)
    · split at hs
      · exact .inl (same _ hs rfl rfl)
      · exact .inl (fresh _ hs rfl rfl)
  · split at hs
    · exact .inl (same _ hs rfl rfl)
    · split at hs
      · exact .inl (same _ hs rfl rfl)
      · exact .inl (same _ hs rfl rfl)
  · exact .inl (same _ hs rfl rfl)
  · rename_i it r rest _
    unfold sendChunk at hs
    split at hs
    · exact .inl (same _ hs rfl rfl)
    · rename_i c hch
      split at hs
      · exact .inl (same _ hs rfl rfl)
      · by_cases hb : inp.big = true
        · rcases more _ ⟨w.request ++ [c], none⟩ hs rfl (by simp only [hb, if_true]) with h | h
          · exact .inl h
          · rcases List.mem_append.mp h with h | h
            · exact .inr (.inl h)
            · simp only [List.mem_singleton] at h
              subst h
              exact .inr (.inr ⟨r, hch⟩)
        · exact .inl (same _ hs rfl (by simp only [hb, if_false, Bool.false_eq_true]))
  · unfold checkItem at hs
    split at hs
    · exact .inl (same _ hs rfl rfl)
    · split at hs
      · exact .inl (same _ hs rfl rfl)
      · exact .inl (same _ hs rfl rfl)
  · exact .inl (same _ hs rfl rfl)
  · exact .inl (same _ hs rfl rfl)
  · rcases more _ _ hs rfl rfl with h | h
    · exact .inl h
    · exact .inr (.inl h)
  · exact .inl (same _ hs rfl rfl)
  · exact .inl (same _ hs rfl rfl)
  · exact .inl (same _ hs rfl rfl)
  · have hend : ∀ w' : TrajWriter, w'.past = w.past → w'.msgs = w.msgs → s ∈ (endStream w').streams → (∃ s' ∈ w.streams, ∃ m' ∈ s', ch ∈ m'.chunks) := by
      intro w' e1 e2 h
      unfold streams endStream at h
      simp only [e1, e2] at h
      rcases List.mem_append.mp h with h | h
      · exact ⟨s, h, m, hm, hc⟩
      · simp only [List.mem_singleton] at h
        subst h
        simp at hm
    refine .inl (hend _ ?_ ?_ hs)
    · split
      · rfl
      · split <;> rfl
    · split
      · rfl
      · split <;> rfl
  · exact .inl (same _ hs rfl rfl)

theorem SentKnown.handle {w : TrajWriter} {rows : Nat → List Row} {cr P : List WItem} {cf : List Key} (h : w.SentKnown) (hi : w.Inv rows cr cf P)
    {e : Event} (hv : e.Valid) : (w.handle e).1.SentKnown := by
  obtain ⟨_, _, _, _, hmv, _⟩ := hi.handle hv
  intro s hs m hm ch hc
  suffices w.Known ch from this.moves hmv
  by_cases hw : ∃ inp, e = .worker inp
  · obtain ⟨inp, rfl⟩ := hw
    have hs' : s ∈ (w.workerStep inp).1.streams := hs
    rcases worker_sent w inp hs' hm hc with ⟨s', h1, m', h2, h3⟩ | h1 | h1
    · exact h s' h1 m' h2 ch h3
    · obtain ⟨_, _, g⟩ := hi.stream .sync
      exact g.request ch h1
    · exact h1
  · have hq := (handle_frame w e fun inp he => hw ⟨inp, he⟩).1
    refine h s ?_ m hm ch hc
    unfold streams at hs ⊢
    rw [← hq.msgs, ← hq.past]
    exact hs

/-- Every chunk that a writer has sent is one of its chunks, and has a key of its generators. -/
theorem Started.sentKnown {w : TrajWriter} (hw : w.Started) {evs : List Event} (hv : ∀ e ∈ evs, e.Valid) :
    (w.run evs).SentKnown ∧ (w.run evs).colGen = w.colGen := by
  have key : ∀ (evs : List Event) {w : TrajWriter} {rows : Nat → List Row} {cr P : List WItem} {cf : List Key}, w.Inv rows cr cf P → w.SentKnown →
      (∀ e ∈ evs, e.Valid) → (w.run evs).SentKnown ∧ (w.run evs).colGen = w.colGen := by
    intro evs
    induction evs with
    | nil => intro w rows cr P cf _ h _; exact ⟨h, rfl⟩
    | cons e evs ih =>
      intro w rows cr P cf hi h hv
      have he := hv e List.mem_cons_self
      obtain ⟨_, _, h1, _⟩ := hi.handle he
      obtain ⟨_, _, _, _, _, hcg, _⟩ := handle_base hi.base he
      obtain ⟨g1, g2⟩ := ih h1 (h.handle hi he) fun x hx => hv x (List.mem_cons_of_mem _ hx)
      rw [run_cons]
      exact ⟨g1, g2.trans hcg⟩
  refine key evs hw.inv ?_ hv
  intro s hs m hm
  have hn := hw.new
  have e6 : w.msgs = [] ∧ w.past = [] := by
    unfold TrajWriter.new at hn
    split at hn
    all_goals first
      | (rw [← Res.ok.inj hn]; exact ⟨rfl, rfl⟩)
      | cases hn
  unfold streams at hs
  rw [e6.1, e6.2] at hs
  simp only [List.nil_append, List.mem_singleton] at hs
  subst hs
  simp at hm

theorem Base.known_key {w : TrajWriter} {rows : Nat → List Row} (h : w.Base rows) {ch : ChunkData} (hk : w.Known ch) : ∃ i n, ch.key = w.colGen i n := by
  obtain ⟨r, hr⟩ := hk
  rw [h.chunk hr]
  unfold chunkOf at hr
  cases hx : w.cell? r with
  | none => simp [hx] at hr
  | some x =>
    have hx' := hx
    unfold cell? at hx
    cases hm : w.chunkers.get? r.col with
    | none => simp [hm] at hx
    | some c =>
      rw [hm] at hx
      obtain ⟨hu, hg⟩ := h.cols.used _ c hm
      obtain ⟨n, hn⟩ := hu.key hx
      exact ⟨r.col, n, by simp [keyOf, hx', hn, hg]⟩

theorem Base.known_eq {w : TrajWriter} {rows : Nat → List Row} (h : w.Base rows) {a b : ChunkData} (ha : w.Known a) (hb : w.Known b)
    (hk : a.key = b.key) : a = b := by
  obtain ⟨r, hr⟩ := ha
  obtain ⟨s, hs⟩ := hb
  rw [h.chunk hr, h.chunk hs] at hk
  have hc : (w.cell? s).isSome := by
    unfold chunkOf at hs
    cases hx : w.cell? s with
    | none => simp [hx] at hs
    | some x => rfl
  have := (h.same hr hc hk.symm).2
  rw [hs] at this
  cases this
  rfl

end TrajWriter
end Verif
