import Verif.Proofs.TrajQueue
namespace Verif
namespace TrajWriter
open Chunker (Row Used Moves Held ident)

theorem addChunkers_frame : ∀ (data : List (Option Tensor)) (w : TrajWriter) (i : Nat), ∃ m, (w.addChunkers i data).1 = { w with chunkers := m }
  | [], w, i => ⟨w.chunkers, rfl⟩
  | none :: data, w, i => addChunkers_frame data w (i + 1)
  | some t :: data, w, i => by
    unfold addChunkers
    cases w.chunkers.get? i with
    | some c => exact addChunkers_frame data w (i + 1)
    | none =>
      simp only
      cases Chunker.new t.dtype t.shape ((w.overrides.get? i).getD w.opts).clone (w.colGen i) with
      | ok c =>
        obtain ⟨m, hm⟩ := addChunkers_frame data { w with chunkers := w.chunkers.insert i c } (i + 1)
        exact ⟨m, by simp only [hm]⟩
      | err e => exact ⟨w.chunkers, rfl⟩
      | died => exact ⟨w.chunkers, rfl⟩

theorem appendAll_frame : ∀ (data : List (Option Tensor)) (w : TrajWriter) (i : Nat), ∃ m, (w.appendAll i data).1 = { w with chunkers := m }
  | [], w, i => ⟨w.chunkers, rfl⟩
  | none :: data, w, i => by
    obtain ⟨m, hm⟩ := appendAll_frame data w (i + 1)
    unfold appendAll
    rcases hx : w.appendAll (i + 1) data with ⟨w', _ | _ | _⟩ <;> rw [hx] at hm <;> exact ⟨m, hm⟩
  | some t :: data, w, i => by
    unfold appendAll
    cases w.chunkers.get? i with
    | none => exact ⟨w.chunkers, rfl⟩
    | some c =>
      simp only
      rcases c.append t w.episode w.step with ⟨c', _ | _ | _⟩
      · simp only
        obtain ⟨m, hm⟩ := appendAll_frame data { w with chunkers := w.chunkers.insert i c' } (i + 1)
        rcases hx : appendAll { w with chunkers := w.chunkers.insert i c' } (i + 1) data with ⟨w', _ | _ | _⟩ <;> rw [hx] at hm <;> exact ⟨m, hm⟩
      · exact ⟨_, rfl⟩
      · exact ⟨_, rfl⟩

theorem append_frame (w : TrajWriter) (data : List (Option Tensor)) (inc : Bool) : ∃ m s, (w.append data inc).1 = { w with
    chunkers := m
    step := s } := by
  unfold append
  split
  · exact ⟨w.chunkers, w.step, rfl⟩
  · obtain ⟨m, hm⟩ := addChunkers_frame data w 0
    rcases hx : w.addChunkers 0 data with ⟨w1, _ | _ | _⟩ <;> rw [hx] at hm <;> simp only at hm <;> subst hm
    · simp only
      obtain ⟨m2, hm2⟩ := appendAll_frame data { w with chunkers := m } 0
      rcases hy : appendAll { w with chunkers := m } 0 data with ⟨w2, _ | _ | _⟩ <;> rw [hy] at hm2 <;> simp only at hm2 <;> subst hm2
      · exact ⟨m2, _, rfl⟩
      · exact ⟨m2, w.step, rfl⟩
      · exact ⟨m2, w.step, rfl⟩
    · exact ⟨m, w.step, rfl⟩
    · exact ⟨m, w.step, rfl⟩

theorem forceRefs_frame : ∀ (refs : List Ref) (w : TrajWriter), ∃ m, (w.forceRefs refs).1 = { w with chunkers := m }
  | [], w => ⟨w.chunkers, rfl⟩
  | r :: refs, w => by
    unfold forceRefs
    split
    · exact forceRefs_frame refs w
    · cases w.chunkers.get? r.col with
      | none => exact ⟨w.chunkers, rfl⟩
      | some c =>
        simp only
        rcases c.flush with ⟨c', _ | _ | _⟩
        · obtain ⟨m, hm⟩ := forceRefs_frame refs { w with chunkers := w.chunkers.insert r.col c' }
          exact ⟨m, hm⟩
        · exact ⟨_, rfl⟩
        · exact ⟨_, rfl⟩

/-- What the events of the user and of the reader leave. -/
structure Quiet (w w' : TrajWriter) : Prop where
  phase : w'.phase = w.phase
  msgs : w'.msgs = w.msgs
  past : w'.past = w.past
  streamed : w'.streamed = w.streamed
  request : w'.request = w.request

/-- The item that an event adds to the queue. -/
def Event.adds (w : TrajWriter) : Event → Res Reply → List WItem
  | .createItem t p cols, .ok (.item _) => [w.makeItem t p cols]
  | _, _ => []

/-- The keys that an event confirms. -/
def Event.confirms : Event → List Key
  | .confirm keys => keys
  | _ => []

theorem confirmed_cons (e : Event) (evs : List Event) : confirmed (e :: evs) = e.confirms ++ confirmed evs := by
  cases e <;> rfl

theorem confirmed_append (a b : List Event) : confirmed (a ++ b) = confirmed a ++ confirmed b := by simp [confirmed]

/-- The events of the user and of the reader. -/
theorem handle_frame (w : TrajWriter) (e : Event) (h : ∀ inp, e ≠ .worker inp) :
    Quiet w (w.handle e).1 ∧ (w.handle e).1.queue = w.queue ++ e.adds w (w.handle e).2 ∧
      (w.handle e).1.inFlight = w.inFlight.filter (fun k => k ∉ e.confirms) ∧
      (e.adds w (w.handle e).2 ≠ [] → ∃ t p cols, e = .createItem t p cols ∧ w.validateColumns cols = .ok () ∧
        (w.handle e).1.drawn = w.drawn + 1 ∧ (w.handle e).2 = .ok (.item (w.gen w.drawn))) := by
  have hfl : ∀ l : List Key, l.filter (fun k => k ∉ ([] : List Key)) = l := fun l => by simp
  cases e with
  | worker inp => exact absurd rfl (h inp)
  | append data inc =>
    obtain ⟨m, s, hm⟩ := append_frame w data inc
    simp only [handle, hm, Event.adds, Event.confirms]
    exact ⟨⟨rfl, rfl, rfl, rfl, rfl⟩, by simp, (hfl _).symm, by simp⟩
  | createItem t p cols =>
    simp only [handle, Event.confirms]
    rcases createItem_cases w t p cols with ⟨r, he, hr⟩ | ⟨r, he, hr⟩ | ⟨hv, _, _, he⟩ <;> rw [he]
    · have ha : Event.adds w (.createItem t p cols) (Reply.of .item r) = [] := by
        cases r with
        | ok k => exact absurd rfl (hr k)
        | err e => rfl
        | died => rfl
      simp only [ha]
      exact ⟨⟨rfl, rfl, rfl, rfl, rfl⟩, by simp, (hfl _).symm, by simp⟩
    · have ha : Event.adds w (.createItem t p cols) (Reply.of .item r) = [] := by
        cases r with
        | ok k => exact absurd rfl (hr k)
        | err e => rfl
        | died => rfl
      simp only [ha]
      exact ⟨⟨rfl, rfl, rfl, rfl, rfl⟩, by simp, (hfl _).symm, by simp⟩
    · exact ⟨⟨rfl, rfl, rfl, rfl, rfl⟩, rfl, (hfl _).symm, fun _ => ⟨t, p, cols, rfl, hv, rfl, rfl⟩⟩
  | flushBegin k =>
    obtain ⟨m, hm⟩ := forceRefs_frame ((w.queue.take ((w.queue.length : Int) - k).toNat).flatMap WItem.refs) w
    simp only [handle, force, hm, Event.adds, Event.confirms]
    exact ⟨⟨rfl, rfl, rfl, rfl, rfl⟩, by simp, (hfl _).symm, by simp⟩
  | flushEnd k =>
    have : (w.handle (.flushEnd k)).1 = w := by simp only [handle]; cases w.flushResult k <;> rfl
    simp only [this, Event.adds, Event.confirms]
    exact ⟨⟨rfl, rfl, rfl, rfl, rfl⟩, by simp, (hfl _).symm, by simp⟩
  | episodeBegin =>
    simp only [handle, Event.adds, Event.confirms]
    cases w.unrecoverable with
    | some e => exact ⟨⟨rfl, rfl, rfl, rfl, rfl⟩, by simp, (hfl _).symm, by simp⟩
    | none =>
      obtain ⟨m, hm⟩ := forceRefs_frame ((w.queue.take ((w.queue.length : Int) - 0).toNat).flatMap WItem.refs) w
      simp only [force, hm]
      exact ⟨⟨rfl, rfl, rfl, rfl, rfl⟩, by simp, (hfl _).symm, by simp⟩
  | episodeEnd clear =>
    simp only [handle, Event.adds, Event.confirms]
    rcases w.flushResult 0 with _ | ⟨_ | _ | _⟩
    · exact ⟨⟨rfl, rfl, rfl, rfl, rfl⟩, by simp, (hfl _).symm, by simp⟩
    · unfold endEpisode
      rcases onAll (fun _ c => if clear then (c.reset, .ok ()) else c.flush) w.chunkers.keys w.chunkers with ⟨m', _ | _ | _⟩ <;>
      exact ⟨⟨rfl, rfl, rfl, rfl, rfl⟩, by simp, (hfl _).symm, by simp⟩
    · exact ⟨⟨rfl, rfl, rfl, rfl, rfl⟩, by simp, (hfl _).symm, by simp⟩
    · exact ⟨⟨rfl, rfl, rfl, rfl, rfl⟩, by simp, (hfl _).symm, by simp⟩
  | configure col o =>
    simp only [handle, Event.adds, Event.confirms, configure]
    cases o.validate with
    | err e => exact ⟨⟨rfl, rfl, rfl, rfl, rfl⟩, by simp, (hfl _).symm, by simp⟩
    | died => exact ⟨⟨rfl, rfl, rfl, rfl, rfl⟩, by simp, (hfl _).symm, by simp⟩
    | ok _ =>
      simp only
      cases w.chunkers.get? col <;> exact ⟨⟨rfl, rfl, rfl, rfl, rfl⟩, by simp, (hfl _).symm, by simp⟩
  | close =>
    simp only [handle, Event.adds, Event.confirms]
    exact ⟨⟨rfl, rfl, rfl, rfl, rfl⟩, by simp, (hfl _).symm, by simp⟩
  | confirm keys => exact ⟨⟨rfl, rfl, rfl, rfl, rfl⟩, by simp [handle, Event.adds], rfl, by simp [Event.adds]⟩

theorem adds_creates (w : TrajWriter) (e : Event) : (e.adds w (w.handle e).2).map WItem.key = e.creates (w.handle e).2 := by
  cases e with
  | createItem t p cols =>
    simp only [handle]
    rcases createItem_cases w t p cols with ⟨r, he, hr⟩ | ⟨r, he, hr⟩ | ⟨hv, _, _, he⟩ <;> rw [he]
    · cases r with
      | ok k => exact absurd rfl (hr k)
      | err e => rfl
      | died => rfl
    · cases r with
      | ok k => exact absurd rfl (hr k)
      | err e => rfl
      | died => rfl
    · rfl
  | _ => rfl

/-- One event. -/
theorem QInv.handle {w : TrajWriter} {rows : Nat → List Row} (hb : w.Base rows) {cr P : List WItem} {cf : List Key} (h : w.QInv cr cf P)
    {e : Event} (hv : e.Valid) : ∃ P', (w.handle e).1.QInv (cr ++ e.adds w (w.handle e).2) (cf ++ e.confirms) P' := by
  by_cases hw : ∃ inp, e = .worker inp
  · obtain ⟨inp, rfl⟩ := hw
    simp only [Event.adds, Event.confirms, List.append_nil]
    exact h.worker hb inp
  · have hw' : ∀ inp, e ≠ .worker inp := fun inp he => hw ⟨inp, he⟩
    obtain ⟨_, _, _, hm, hg, _, hd, _⟩ := handle_base hb hv
    obtain ⟨hq, hqueue, hfly, hadd⟩ := handle_frame w e hw'
    have hreset : (e.resets && decide (w.queue = []) && decide (w.inFlight = [])) = true → w.queue = [] ∧ e.adds w (w.handle e).2 = [] := by
      intro hx
      simp only [Bool.and_eq_true, decide_eq_true_eq] at hx
      refine ⟨hx.1.2, ?_⟩
      cases e <;> simp [Event.resets] at hx
      rfl
    have hsub : ∀ k, k ∈ w.inFlight ∨ k ∈ cf → k ∈ (w.handle e).1.inFlight ∨ k ∈ cf ++ e.confirms := by
      intro k hk
      rw [hfly]
      simp only [List.mem_filter, decide_eq_true_eq, List.mem_append]
      by_cases hc : k ∈ e.confirms
      · exact .inr (.inr hc)
      · rcases hk with hk | hk
        · exact .inl ⟨hk, hc⟩
        · exact .inr (.inl hk)
    refine ⟨P, ⟨by rw [hg]; exact h.inj, by rw [hqueue, h.split, List.append_assoc], ?_, ?_, fun it hi => hsub _ (h.gone it hi),
      by rw [hfly]; exact h.once.filter _, ?_, ?_, ?_, ?_⟩⟩
    · intro it hi
      rcases List.mem_append.mp hi with hi | hi
      · obtain ⟨n, g1, g2⟩ := h.keys it hi
        exact ⟨n, by omega, by rw [hg]; exact g2⟩
      · obtain ⟨t, p, cols, he, h1, h2, h3⟩ := hadd (List.ne_nil_of_mem hi)
        refine ⟨w.drawn, by omega, ?_⟩
        have := adds_creates w e
        rw [h3] at this hi
        subst he
        simp only [Event.adds, List.mem_singleton] at hi
        subst hi
        rw [hg]
        rfl
    · rw [List.map_append, List.nodup_append]
      refine ⟨h.nodup, ?_, ?_⟩
      · cases ha : e.adds w (w.handle e).2 with
        | nil => simp
        | cons x l =>
          obtain ⟨t, p, cols, he, h1, h2, h3⟩ := hadd (by simp [ha])
          rw [h3] at ha
          subst he
          simp only [Event.adds, List.cons.injEq] at ha
          rw [← ha.2]
          simp
      · intro a ha b hb2 hab
        obtain ⟨x, hx, rfl⟩ := List.mem_map.mp ha
        obtain ⟨y, hy, rfl⟩ := List.mem_map.mp hb2
        obtain ⟨n, g1, g2⟩ := h.keys x hx
        obtain ⟨t, p, cols, he, h1, h2, h3⟩ := hadd (List.ne_nil_of_mem hy)
        rw [h3] at hy
        subst he
        simp only [Event.adds, List.mem_singleton] at hy
        subst hy
        rw [g2] at hab
        have := h.inj _ _ hab
        omega
    · rw [hqueue]
      intro it hi r hr
      cases hb2 : (e.resets && decide (w.queue = []) && decide (w.inFlight = [])) with
      | true =>
        obtain ⟨h1, h2⟩ := hreset hb2
        rw [h1, h2] at hi
        cases hi
      | false =>
        rw [hb2] at hm
        refine HeldRef.moves hm ?_
        rcases List.mem_append.mp hi with hi | hi
        · exact h.held it hi r hr
        · obtain ⟨t, p, cols, he, h1, h2, h3⟩ := hadd (List.ne_nil_of_mem hi)
          rw [h3] at hi
          subst he
          simp only [Event.adds, List.mem_singleton] at hi
          subst hi
          obtain ⟨c, g1, g2⟩ := List.mem_flatMap.mp hr
          exact alive_held hb h ((validateColumn_iff (validateColumns_alive h1 c g1)).1 r g2)
    · intro it hi
      refine ItemOK.moves hm ?_
      rcases List.mem_append.mp hi with hi | hi
      · exact h.items it hi
      · obtain ⟨t, p, cols, he, h1, h2, h3⟩ := hadd (List.ne_nil_of_mem hi)
        rw [h3] at hi
        subst he
        simp only [Event.adds, List.mem_singleton] at hi
        subst hi
        exact makeItem_ok fun c g1 r g2 => alive_held hb h ((validateColumn_iff (validateColumns_alive h1 c g1)).1 r g2)
    · exact h.phase.grow hq.phase hq.msgs (fun it hi => by rw [hqueue]; exact head_append hi) hsub (List.prefix_append _ _)
    · rw [hq.past]
      exact fun s hs => (h.past s hs).trans (List.prefix_append _ _).isInfix

end TrajWriter
end Verif
