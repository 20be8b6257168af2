import Verif.Proofs.TrajRun
import Verif.Props.TrajDemo
/-
C38: writer and server agree on the chunks that the server keeps. C39: what a successful flush means. C40: order of the items.
-/
namespace Verif
namespace TrajWriter

/-- C38: for every request `m` of every stream, and either server: the server accepts the requests before it and the request itself;
if there is an item, the server has all its chunks, and afterwards it has exactly the chunks with the keys that the writer listed. -/
theorem C38_agree {w : TrajWriter} (hs : w.Started) {evs : List Event} (hv : ∀ e ∈ evs, e.Valid) {s pre post : List Msg} {m : Msg}
    (hm : s ∈ (w.run evs).streams) (he : s = pre ++ m :: post) (srv : Server) :
    ∃ cache ins cache' out, serveAll srv .empty pre = .ok (cache, ins) ∧ serve srv cache m = .ok (cache', out) ∧
      ∀ it keep, m.item = some (it, keep) →
        (∃ chunks, out = some (it, chunks) ∧ chunks.map ChunkData.key = getChunkKeys it.traj) ∧ ∀ k, k ∈ cache'.keys ↔ k ∈ keep := by
  obtain ⟨rows, P, h⟩ := hs.run hv
  obtain ⟨c, ins, h1, h2⟩ := h.served hm srv
  subst he
  obtain ⟨c1, i1, i2, g1, g2, g3⟩ := serveAll_split h1
  simp only [serveAll] at g2
  rcases g4 : serve srv c1 m with ⟨c2, out⟩ | _ | _ <;> simp only [g4] at g2
  · rcases g5 : serveAll srv c2 post with ⟨c3, i3⟩ | _ | _ <;> simp only [g5] at g2
    · simp only [Res.ok.injEq, Prod.mk.injEq] at g2
      refine ⟨c1, i1, c2, out, g1, g4, fun it keep hk => ?_⟩
      obtain ⟨chs, k1, k2, k3⟩ := serve_item g4 hk
      refine ⟨⟨chs, k1, ?_⟩, k3⟩
      exact (h2 (it, chs) (by rw [g3, ← g2.2, k1]; simp)).1
    · cases g2
    · cases g2
  · cases g2
  · cases g2

/-- C39: if `Flush(k)` returns OK, at most `k` of the items created so far are not confirmed. -/
theorem C39_flush {w : TrajWriter} (hs : w.Started) {pre : List Event} (hv : ∀ e ∈ pre, e.Valid) {k : Int}
    (h : w.replyAt pre (.flushEnd k) = .ok .done) : (((w.created pre).filter fun key => key ∉ confirmed pre).length : Int) ≤ k := by
  obtain ⟨rows, P, hi⟩ := hs.run hv
  have hp : (w.run pre).numPending ≤ k := by
    unfold replyAt TrajWriter.handle flushResult at h
    cases hu : (w.run pre).unrecoverable with
    | some e => simp [hu, Reply.of] at h
    | none =>
      simp only [hu] at h
      by_cases hc : (w.run pre).numPending ≤ k
      · exact hc
      · simp [hc] at h
  refine Int.le_trans ?_ hp
  rw [← added_keys]
  have hnd : List.Nodup _ := hi.q.nodup.filter (fun key => decide (key ∉ confirmed pre))
  have hsub : ∀ key ∈ ((w.added pre).map WItem.key).filter (fun key => decide (key ∉ confirmed pre)),
      key ∈ (w.run pre).inFlight ∨ key ∈ (w.run pre).queue.map WItem.key := by
    intro key hk
    rw [List.mem_filter, decide_eq_true_eq] at hk
    obtain ⟨it, h1, rfl⟩ := List.mem_map.mp hk.1
    rw [hi.q.split] at h1
    rcases List.mem_append.mp h1 with h1 | h1
    · rcases hi.q.gone it h1 with h2 | h2
      · exact .inl h2
      · exact absurd h2 hk.2
    · exact .inr (List.mem_map_of_mem h1)
  unfold numPending
  cases hq : (w.run pre).queue with
  | nil =>
    have := List.Nodup.length_le_of_subset hnd (l₂ := (w.run pre).inFlight) fun x hx => by
      rcases hsub x hx with h1 | h1
      · exact h1
      · rw [hq] at h1; cases h1
    simp only [List.length_nil]
    omega
  | cons it q =>
    by_cases hin : it.key ∈ (w.run pre).inFlight
    · have := List.Nodup.length_le_of_subset hnd (l₂ := (w.run pre).inFlight ++ q.map WItem.key) fun x hx => by
        rcases hsub x hx with h1 | h1
        · exact List.mem_append_left _ h1
        · rw [hq] at h1
          rcases List.mem_cons.mp h1 with h1 | h1
          · subst h1; exact List.mem_append_left _ hin
          · exact List.mem_append_right _ h1
      simp only [hin, if_true, List.length_cons, List.length_append, List.length_map] at this ⊢
      omega
    · have := List.Nodup.length_le_of_subset hnd (l₂ := (w.run pre).inFlight ++ (it :: q).map WItem.key) fun x hx => by
        rcases hsub x hx with h1 | h1
        · exact List.mem_append_left _ h1
        · rw [hq] at h1; exact List.mem_append_right _ h1
      simp only [hin, if_false, List.length_cons, List.length_append, List.length_map] at this ⊢
      omega

/-- C39: `Flush(k)` succeeds in cutting short the chunks that all but the last `k` items in the queue need: afterwards all their data
can be sent. -/
theorem C39_ready {w : TrajWriter} (hs : w.Started) {pre : List Event} (hv : ∀ e ∈ pre, e.Valid) (k : Int) :
    w.replyAt pre (.flushBegin k) = .ok .waiting ∧
      ∀ it ∈ (w.run pre).queue.take ((w.run pre).queue.length - k).toNat, ∀ r ∈ it.refs, (w.run (pre ++ [.flushBegin k])).ready r = true := by
  obtain ⟨rows, P, hi⟩ := hs.run hv
  obtain ⟨m, h1, h2, h3, h4⟩ := forceRefs_ok
    (refs := ((w.run pre).queue.take (((w.run pre).queue.length : Int) - k).toNat).flatMap WItem.refs) hi.base
  obtain ⟨g1, g2⟩ := h4 fun r hr => by
    obtain ⟨it, k1, k2⟩ := List.mem_flatMap.mp hr
    exact hi.q.held it (List.mem_of_mem_take k1) r k2
  refine ⟨?_, fun it hit r hr => ?_⟩
  · simp only [replyAt, TrajWriter.handle, force, g1, Reply.of]
  · rw [run_append]
    exact g2 r (List.mem_flatMap.mpr ⟨it, hit, hr⟩)

/-- C40: the items of a stream are consecutive in the order of creation, and no key is given to two items; so no item is written twice to
one stream. -/
theorem C40_order {w : TrajWriter} (hs : w.Started) {evs : List Event} (hv : ∀ e ∈ evs, e.Valid) {s : List Msg}
    (hm : s ∈ (w.run evs).streams) : itemKeys s <:+: w.created evs ∧ (w.created evs).Nodup ∧ (itemKeys s).Nodup := by
  obtain ⟨rows, P, h⟩ := hs.run hv
  have h1 := h.infix hm
  have h2 : itemKeys s <:+: w.created evs := by
    rw [← added_keys]
    obtain ⟨a, b, hab⟩ := h1
    exact ⟨a.map WItem.key, b.map WItem.key, by rw [← hab]; simp [itemKeys]⟩
  have h3 : (w.created evs).Nodup := by rw [← added_keys]; exact h.q.nodup
  exact ⟨h2, h3, h2.sublist.nodup h3⟩

/-- C40: every chunk of an item is in a request of the same stream that is not after the one with the item. -/
theorem C40_complete {w : TrajWriter} (hs : w.Started) {evs : List Event} (hv : ∀ e ∈ evs, e.Valid) {s pre post : List Msg} {m : Msg}
    (hm : s ∈ (w.run evs).streams) (he : s = pre ++ m :: post) {it : WItem} {keep : List Key} (hi : m.item = some (it, keep))
    {k : Key} (hk : k ∈ getChunkKeys it.traj) : ∃ x ∈ pre ++ [m], ∃ ch ∈ x.chunks, ch.key = k := by
  obtain ⟨rows, P, h⟩ := hs.run hv
  obtain ⟨c, ins, h1, h2⟩ := h.served hm .sync
  have hs' : s = (pre ++ [m]) ++ post := by simp [he]
  rw [hs'] at h1
  obtain ⟨c1, i1, i2, g1, _, _⟩ := serveAll_split h1
  obtain ⟨c0, i0, i0', g2, g3, _⟩ := serveAll_split g1
  simp only [serveAll] at g3
  rcases g4 : serve .sync c0 m with ⟨c2, out⟩ | _ | _ <;> simp only [g4] at g3
  · obtain ⟨chs, k1, k2, k3⟩ := serve_item g4 hi
    have hget := findChunks_get k2
    have : (saveChunks .sync c0 m.chunks).get? k ≠ none := by
      intro hn
      have : (saveChunks .sync c0 m.chunks).get? k ∈ chs.map some := by rw [hget]; exact List.mem_map_of_mem hk
      rw [hn] at this
      obtain ⟨x, _, hx⟩ := List.mem_map.mp this
      cases hx
    have hk' : k ∈ (saveChunks .sync c0 m.chunks).keys := by
      rw [AMap.mem_keys_iff]
      exact Option.isSome_iff_ne_none.mpr this
    rcases (saveChunks_keys _ _ _ _).mp hk' with hk' | hk'
    · rcases serveAll_from g2 k hk' with h5 | h5
      · cases h5
      · obtain ⟨ch, h6, rfl⟩ := List.mem_map.mp h5
        obtain ⟨x, h7, h8⟩ := List.mem_flatMap.mp h6
        exact ⟨x, List.mem_append_left _ h7, ch, h8, rfl⟩
    · obtain ⟨ch, h6, rfl⟩ := List.mem_map.mp hk'
      exact ⟨m, by simp, ch, h6, rfl⟩
  · cases g3
  · cases g3

/-! ### Examples -/
namespace TrajDemo

example : (writer opts).Started := started (by decide)

theorem row_wf (n : Nat) (h : n < 2 ^ 32) : (row n).WF := ⟨rfl, fun w hw x hx => by
  simp only [row, DType.bits, Option.some.injEq] at hw
  simp only [row, List.mem_singleton] at hx
  subst hw hx
  exact h⟩

theorem two_valid (n : Nat) (inp : Input) : ∀ e ∈ two ++ steps n inp, e.Valid := by
  intro e he
  rcases List.mem_append.mp he with he | he
  · simp only [two, List.mem_cons, List.not_mem_nil, or_false] at he
    rcases he with rfl | rfl | rfl | rfl | rfl | rfl <;> simp only [Event.Valid, List.mem_singleton, Option.some.injEq, forall_eq] <;> exact row_wf _ (by decide)
  · rw [List.eq_of_mem_replicate he]
    trivial

/-- Two items, of which the second needs a chunk sent before and a new one; the first chunk is then no longer kept for the queue but for
the references that the user can still use. -/
example : ((writer opts).run (two ++ steps 30 good)).streams.map (fun s => s.map fun m => (m.chunks.map ChunkData.key, m.item.map fun x => (x.1.key, x.2))) =
    [[([1], some (1, [1])), ([3], some (2, [1, 3]))]] ∧ (writer opts).created (two ++ steps 30 good) = [1, 2] := by decide +kernel

/-- A flush is answered when enough items are confirmed. -/
example : (writer opts).replyAt (two ++ steps 30 good) (.flushEnd 0) = .ok .waiting ∧
    (writer opts).replyAt (two ++ steps 30 good ++ [.confirm [1]]) (.flushEnd 1) = .ok .done ∧
    (writer opts).replyAt (two ++ steps 30 good ++ [.confirm [1], .confirm [2]]) (.flushEnd 0) = .ok .done := by decide +kernel

end TrajDemo
end TrajWriter
end Verif
