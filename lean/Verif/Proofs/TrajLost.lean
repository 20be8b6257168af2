import Verif.Proofs.TrajRun
namespace Verif
namespace TrajWriter
open Chunker (Row Used Moves Held ident)

/-- What a step of the worker does with items. -/
theorem worker_effect (w : TrajWriter) (inp : Input) : (∀ it ∈ (w.workerStep inp).1.queue, it ∈ w.queue) ∧
    (∀ k ∈ w.inFlight, (∀ it, w.phase = .sendFailed it → it.key ≠ k) → k ∈ (w.workerStep inp).1.inFlight) ∧
    (∀ it ∈ itemsOf (w.workerStep inp).1.msgs, it ∈ itemsOf w.msgs ∨ w.phase = .send it) ∧
    ((w.workerStep inp).1.past = w.past ∨ (w.workerStep inp).1.past = w.past ++ [w.msgs]) := by
  unfold workerStep
  have triv : (∀ it ∈ w.queue, it ∈ w.queue) ∧ (∀ k ∈ w.inFlight, (∀ it, w.phase = .sendFailed it → it.key ≠ k) → k ∈ w.inFlight) ∧
      (∀ it ∈ itemsOf w.msgs, it ∈ itemsOf w.msgs ∨ w.phase = .send it) ∧ (w.past = w.past ∨ w.past = w.past ++ [w.msgs]) :=
    ⟨fun _ h => h, fun _ h _ => h, fun _ h => .inl h, .inl rfl⟩
  cases hp : w.phase with
  | start =>
    simp only
    cases w.unrecoverable with
    | some e => exact ⟨fun _ h => h, fun _ h _ => h, fun _ h => .inl h, .inl rfl⟩
    | none =>
      simp only
      split
      · exact ⟨fun _ h => h, fun _ h _ => h, fun _ h => .inl h, .inl rfl⟩
      · exact ⟨fun _ h => h, fun _ h _ => h, fun _ h => by simp [itemsOf] at h, .inl rfl⟩
  | fetch =>
    simp only
    split
    · exact ⟨fun _ h => h, fun _ h _ => h, fun _ h => .inl h, .inl rfl⟩
    · cases hq : w.queue with
      | nil => exact ⟨fun _ h => by simpa [hq] using h, fun _ h _ => h, fun _ h => .inl h, .inl rfl⟩
      | cons it q => exact ⟨fun _ h => h, fun _ h _ => h, fun _ h => .inl h, .inl rfl⟩
  | chunks it rest =>
    cases rest with
    | nil => exact ⟨fun _ h => h, fun _ h _ => h, fun _ h => .inl h, .inl rfl⟩
    | cons r rest =>
      simp only [sendChunk]
      cases w.chunkOf r with
      | none => exact ⟨fun _ h => h, fun _ h _ => h, fun _ h => .inl h, .inl rfl⟩
      | some ch =>
        simp only
        split
        · exact ⟨fun _ h => h, fun _ h _ => h, fun _ h => .inl h, .inl rfl⟩
        · refine ⟨fun _ h => h, fun _ h _ => h, fun _ h => .inl ?_, .inl rfl⟩
          simp only at h
          split at h
          · simpa [itemsOf] using h
          · exact h
  | check it =>
    simp only [checkItem]
    split
    · refine ⟨fun _ h => h, fun _ h _ => ?_, fun _ h => .inl h, .inl rfl⟩
      simp only
      split
      · exact h
      · exact List.mem_append_left _ h
    · split <;> exact ⟨fun _ h => h, fun _ h _ => h, fun _ h => .inl h, .inl rfl⟩
  | waiting => exact ⟨fun _ h => h, fun _ h _ => h, fun _ h => .inl h, .inl rfl⟩
  | finalize it => exact ⟨fun _ h => h, fun _ h _ => h, fun _ h => .inl h, .inl rfl⟩
  | send it =>
    refine ⟨fun _ h => h, fun _ h _ => h, fun x h => ?_, .inl rfl⟩
    simp only [itemsOf_append, List.mem_append] at h
    rcases h with h | h
    · exact .inl h
    · simp only [itemsOf, List.filterMap_cons, List.filterMap_nil, Option.map_some, List.mem_singleton] at h
      exact .inr (by rw [h])
  | sent => exact ⟨fun _ h => List.mem_of_mem_drop h, fun _ h _ => h, fun _ h => .inl h, .inl rfl⟩
  | sendFailed it =>
    refine ⟨fun _ h => h, fun k h hn => ?_, fun _ h => .inl h, .inl rfl⟩
    simp only [List.mem_filter, h, true_and, decide_eq_true_eq]
    exact fun he => hn it rfl he.symm
  | finish => exact ⟨fun _ h => h, fun _ h _ => h, fun _ h => .inl h, .inl rfl⟩
  | ended status =>
    simp only [endStream]
    split
    · exact ⟨fun _ h => h, fun _ h _ => h, fun _ h => by simp [itemsOf] at h, .inr rfl⟩
    · cases status with
      | none => exact ⟨fun _ h => h, fun _ h _ => h, fun _ h => by simp [itemsOf] at h, .inr rfl⟩
      | some e => cases e <;> exact ⟨fun _ h => h, fun _ h _ => h, fun _ h => by simp [itemsOf] at h, .inr rfl⟩
  | stopped => exact ⟨fun _ h => h, fun _ h _ => h, fun _ h => .inl h, .inl rfl⟩

/-- An item that is in flight but neither in the queue nor on the current stream. -/
structure Lost (w : TrajWriter) (k : Key) (n : Nat) : Prop where
  flying : k ∈ w.inFlight
  queue : k ∉ w.queue.map WItem.key
  stream : k ∉ itemKeys w.msgs
  le : n ≤ w.past.length
  past : ∀ s ∈ w.past.drop n, k ∉ itemKeys s

theorem Lost.handle {w : TrajWriter} {rows : Nat → List Row} {cr P : List WItem} {cf : List Key} (hi : w.Inv rows cr cf P) {k : Key} {n : Nat}
    (h : w.Lost k n) (hk : k ∈ cr.map WItem.key) {e : Event} (hv : e.Valid) (hc : ∀ keys, e = .confirm keys → ∀ x ∈ keys, x ∈ itemKeys w.msgs) :
    (w.handle e).1.Lost k n := by
  by_cases hw : ∃ inp, e = .worker inp
  · obtain ⟨inp, rfl⟩ := hw
    obtain ⟨h1, h2, h3, h4⟩ := worker_effect w inp
    have hqp := hi.q.phase
    unfold PhaseOK at hqp
    have hne : ∀ it, w.queue.head? = some it → it.key ≠ k := fun it hit he =>
      h.queue (he ▸ List.mem_map_of_mem (List.mem_of_head? hit))
    show (w.workerStep inp).1.Lost k n
    refine ⟨h2 k h.flying fun it hp => ?_, fun hm => ?_, fun hm => ?_, ?_, ?_⟩
    · rw [hp] at hqp
      exact hne it hqp.1
    · obtain ⟨it, g1, g2⟩ := List.mem_map.mp hm
      exact h.queue (g2 ▸ List.mem_map_of_mem (h1 it g1))
    · obtain ⟨it, g1, g2⟩ := List.mem_map.mp hm
      rcases h3 it g1 with g3 | g3
      · exact h.stream (g2 ▸ List.mem_map_of_mem g3)
      · rw [g3] at hqp
        exact hne it hqp.1 g2
    · rcases h4 with h4 | h4 <;> rw [h4]
      · exact h.le
      · have := h.le
        simp only [List.length_append, List.length_singleton]
        omega
    · rcases h4 with h4 | h4 <;> rw [h4]
      · exact h.past
      · rw [List.drop_append_of_le_length h.le]
        intro s hs
        rcases List.mem_append.mp hs with hs | hs
        · exact h.past s hs
        · simp only [List.mem_singleton] at hs
          subst hs
          exact h.stream
  · have hw' : ∀ inp, e ≠ .worker inp := fun inp he => hw ⟨inp, he⟩
    obtain ⟨hq, hqueue, hfly, hadd⟩ := handle_frame w e hw'
    obtain ⟨rows', P', hi', _⟩ := hi.handle hv
    refine ⟨?_, ?_, by rw [hq.msgs]; exact h.stream, by rw [hq.past]; exact h.le, by rw [hq.past]; exact h.past⟩
    · rw [hfly, List.mem_filter, decide_eq_true_eq]
      refine ⟨h.flying, fun hx => ?_⟩
      cases e <;> simp [Event.confirms] at hx
      exact h.stream (hc _ rfl k hx)
    · rw [hqueue, List.map_append, List.mem_append]
      rintro (hx | hx)
      · exact h.queue hx
      · have := hi'.q.nodup
        rw [List.map_append, List.nodup_append] at this
        exact this.2.2 k hk k hx rfl

theorem Lost.run {k : Key} {n : Nat} : ∀ {evs : List Event} {w : TrajWriter} {rows : Nat → List Row} {cr P : List WItem} {cf : List Key},
    w.Inv rows cr cf P → w.Lost k n → k ∈ cr.map WItem.key → (∀ e ∈ evs, e.Valid) → w.Honest evs → (w.run evs).Lost k n
  | [], _, _, _, _, _, _, h, _, _, _ => h
  | e :: evs, w, rows, cr, P, cf, hi, h, hk, hv, hh => by
    obtain ⟨rows', P', hi', _⟩ := hi.handle (hv e List.mem_cons_self)
    have h' := h.handle hi hk (hv e List.mem_cons_self) fun keys he => hh [] keys evs (by rw [he]; rfl)
    refine Lost.run (evs := evs) hi' h' ?_ (fun x hx => hv x (List.mem_cons_of_mem _ hx)) fun pre keys post he x hx => ?_
    · rw [List.map_append]
      exact List.mem_append_left _ hk
    · exact hh (e :: pre) keys post (by rw [he]; rfl) x hx

/-! ### Items that were not written -/

theorem written_append : ∀ (w : TrajWriter) (a b : List Event), w.written (a ++ b) = w.written a ++ (w.run a).written b
  | w, [], b => rfl
  | w, e :: a, b => by
    simp only [List.cons_append, written, run_cons, written_append (w.handle e).1 a b, List.append_assoc]

structure Unwritten (w : TrajWriter) (cr : List WItem) (wr : List Key) : Prop where
  items : ∀ it ∈ cr, it ∈ w.queue ∨ it.key ∈ wr
  sent : w.phase = .sent → ∀ it, w.queue.head? = some it → it.key ∈ wr

theorem worker_queue (w : TrajWriter) (inp : Input) : (w.phase = .sent ∧ (w.workerStep inp).1.queue = w.queue.drop 1 ∧ (w.workerStep inp).1.phase = .fetch) ∨
    ((w.workerStep inp).1.queue = w.queue ∧ ((w.workerStep inp).1.phase = .sent → ∃ it, w.phase = .send it ∧ inp.ok = true)) := by
  unfold workerStep
  cases hp : w.phase with
  | start =>
    refine .inr ?_
    simp only
    cases w.unrecoverable with
    | some e => simp
    | none => simp only; split <;> simp
  | fetch =>
    refine .inr ?_
    simp only
    split
    · simp
    · cases hq : w.queue with
      | nil => simp [hp, hq]
      | cons it q => simp
  | chunks it rest =>
    refine .inr ?_
    cases rest with
    | nil => simp
    | cons r rest =>
      simp only [sendChunk]
      cases w.chunkOf r with
      | none => simp
      | some ch =>
        simp only
        split
        · simp
        · refine ⟨rfl, fun h => ?_⟩
          simp only at h
          split at h <;> cases h
  | check it =>
    refine .inr ?_
    simp only [checkItem]
    split
    · simp
    · split <;> simp
  | send it =>
    refine .inr ⟨rfl, fun h => ?_⟩
    simp only at h
    split at h
    · rename_i ho; exact ⟨it, rfl, ho⟩
    · cases h
  | sent => exact .inl ⟨rfl, rfl, rfl⟩
  | ended status =>
    refine .inr ?_
    simp only [endStream]
    split
    · simp
    · cases status with
      | none => simp
      | some e => cases e <;> simp
  | stopped => simp [hp]
  | _ => simp

theorem Unwritten.handle {w : TrajWriter} {rows : Nat → List Row} {cr P : List WItem} {cf wr : List Key} (hi : w.Inv rows cr cf P)
    (h : w.Unwritten cr wr) (e : Event) : (w.handle e).1.Unwritten (cr ++ e.adds w (w.handle e).2) (wr ++ e.writes w) := by
  by_cases hw : ∃ inp, e = .worker inp
  · obtain ⟨inp, rfl⟩ := hw
    simp only [Event.adds, List.append_nil]
    show (w.workerStep inp).1.Unwritten cr _
    have hqp := hi.q.phase
    unfold PhaseOK at hqp
    rcases worker_queue w inp with ⟨h1, h2, h3⟩ | ⟨h1, h2⟩
    · refine ⟨fun it hit => ?_, fun hp => by rw [h3] at hp; cases hp⟩
      rcases h.items it hit with h4 | h4
      · rw [h2]
        cases hq : w.queue with
        | nil => rw [hq] at h4; cases h4
        | cons x q =>
          rw [hq] at h4
          rcases List.mem_cons.mp h4 with rfl | h4
          · exact .inr (List.mem_append_left _ (h.sent h1 it (by rw [hq]; rfl)))
          · exact .inl h4
      · exact .inr (List.mem_append_left _ h4)
    · refine ⟨fun it hit => ?_, fun hp it hit => ?_⟩
      · rcases h.items it hit with h4 | h4
        · exact .inl (by rw [h1]; exact h4)
        · exact .inr (List.mem_append_left _ h4)
      · obtain ⟨x, g1, g2⟩ := h2 hp
        rw [g1] at hqp
        rw [h1, hqp.1] at hit
        cases hit
        simp [Event.writes, g1, g2]
  · have hw' : ∀ inp, e ≠ .worker inp := fun inp he => hw ⟨inp, he⟩
    obtain ⟨hq, hqueue, hfly, hadd⟩ := handle_frame w e hw'
    have hwr : e.writes w = [] := by
      cases e <;> first | rfl | exact absurd rfl (hw' _)
    rw [hwr, List.append_nil]
    refine ⟨fun it hit => ?_, fun hp it hit => ?_⟩
    · rw [hqueue]
      rcases List.mem_append.mp hit with hit | hit
      · rcases h.items it hit with h4 | h4
        · exact .inl (List.mem_append_left _ h4)
        · exact .inr h4
      · exact .inl (List.mem_append_right _ hit)
    · rw [hq.phase] at hp
      have hqp := hi.q.phase
      unfold PhaseOK at hqp
      rw [hp] at hqp
      obtain ⟨x, hx, _⟩ := hqp
      have : (w.handle e).1.queue.head? = some x := by rw [hqueue]; exact head_append hx
      rw [this] at hit
      cases hit
      exact h.sent hp _ hx

theorem Unwritten.run : ∀ {evs : List Event} {w : TrajWriter} {rows : Nat → List Row} {cr P : List WItem} {cf wr : List Key},
    w.Inv rows cr cf P → w.Unwritten cr wr → (∀ e ∈ evs, e.Valid) → (w.run evs).Unwritten (cr ++ w.added evs) (wr ++ w.written evs)
  | [], _, _, _, _, _, _, _, h, _ => by simpa [added, written, TrajWriter.run] using h
  | e :: evs, w, rows, cr, P, cf, wr, hi, h, hv => by
    obtain ⟨rows', P', hi', _⟩ := hi.handle (hv e List.mem_cons_self)
    have := Unwritten.run (evs := evs) hi' (h.handle hi e) fun x hx => hv x (List.mem_cons_of_mem _ hx)
    simp only [added, written, ← List.append_assoc]
    exact this

end TrajWriter
end Verif
