import Verif.Proofs.TrajStream
namespace Verif
namespace TrajWriter
open Chunker (Row Used Moves Held ident)

theorem Started.inv {w : TrajWriter} (h : w.Started) : w.Inv (fun _ => []) [] [] [] := by
  have hn := h.new
  unfold TrajWriter.new at hn
  cases ho : w.opts.validate with
  | err e => simp [ho] at hn
  | died => simp [ho] at hn
  | ok u =>
    simp only [ho, Res.ok.injEq] at hn
    have e1 : w.chunkers = .empty := by rw [← hn]
    have e2 : w.overrides = .empty := by rw [← hn]
    have e3 : w.queue = [] := by rw [← hn]
    have e4 : w.inFlight = [] := by rw [← hn]
    have e5 : w.phase = .start := by rw [← hn]
    have e6 : w.msgs = [] := by rw [← hn]
    have e7 : w.past = [] := by rw [← hn]
    have e8 : w.request = [] := by rw [← hn]
    have hget : ∀ i, (AMap.empty : AMap Nat Chunker).get? i = none := fun i => rfl
    refine ⟨⟨h.colGen, ⟨ho, ?_⟩, ⟨?_, ?_⟩⟩, ⟨h.gen, by simp [e3], by simp, by simp, by simp, by simp [e4], by simp [e3], by simp, ?_, by simp [e7]⟩, ?_⟩
    · rw [e2]; intro i o hi; cases hi
    · rw [e1]; intro i c hc; cases hc
    · intro i _; rfl
    · simp [PhaseOK, e5, e6]
    · intro srv
      refine ⟨.empty, [], ⟨by rw [e6]; rfl, by simp [InsOK], ?_, by simp [e8], by simp [StreamPhase, e5], by simp [e7]⟩⟩
      intro k ch hk
      cases hk

theorem run_append (w : TrajWriter) (a b : List Event) : w.run (a ++ b) = (w.run a).run b := by simp [run, List.foldl_append]

theorem run_cons (w : TrajWriter) (e : Event) (evs : List Event) : w.run (e :: evs) = (w.handle e).1.run evs := rfl

theorem created_append : ∀ (w : TrajWriter) (a b : List Event), w.created (a ++ b) = w.created a ++ (w.run a).created b
  | w, [], b => rfl
  | w, e :: a, b => by
    simp only [List.cons_append, created, run_cons, created_append (w.handle e).1 a b, List.append_assoc]

/-- The items added by events. -/
def added (w : TrajWriter) : List Event → List WItem
  | [] => []
  | e :: evs => e.adds w (w.handle e).2 ++ added (w.handle e).1 evs

theorem added_keys : ∀ (w : TrajWriter) (evs : List Event), (w.added evs).map WItem.key = w.created evs
  | _, [] => rfl
  | w, e :: evs => by simp [added, created, adds_creates, added_keys (w.handle e).1 evs]

theorem added_append : ∀ (w : TrajWriter) (a b : List Event), w.added (a ++ b) = w.added a ++ (w.run a).added b
  | w, [], b => rfl
  | w, e :: a, b => by
    simp only [List.cons_append, added, run_cons, added_append (w.handle e).1 a b, List.append_assoc]

/-- All events. -/
theorem Inv.run {w : TrajWriter} {rows : Nat → List Row} {cr P : List WItem} {cf : List Key} (h : w.Inv rows cr cf P) {evs : List Event}
    (hv : ∀ e ∈ evs, e.Valid) : ∃ rows' P', (w.run evs).Inv rows' (cr ++ w.added evs) (cf ++ confirmed evs) P' ∧ Grows rows rows' ∧
      MMoves w.chunkers (w.run evs).chunkers true := by
  induction evs generalizing w rows cr P cf with
  | nil => exact ⟨rows, P, by simpa [added, confirmed, TrajWriter.run] using h, Grows.refl _, MMoves.refl _ _⟩
  | cons e evs ih =>
    obtain ⟨rows1, P1, h1, h2, h3, _⟩ := h.handle (hv e List.mem_cons_self)
    obtain ⟨rows2, P2, g1, g2, g3⟩ := ih h1 fun x hx => hv x (List.mem_cons_of_mem _ hx)
    refine ⟨rows2, P2, ?_, h2.trans g2, h3.trans' g3⟩
    rw [run_cons, confirmed_cons]
    simp only [added]
    rw [← List.append_assoc, ← List.append_assoc]
    exact g1

theorem Started.run {w : TrajWriter} (h : w.Started) {evs : List Event} (hv : ∀ e ∈ evs, e.Valid) :
    ∃ rows P, (w.run evs).Inv rows (w.added evs) (confirmed evs) P := by
  obtain ⟨rows, P, h1, _⟩ := h.inv.run hv
  exact ⟨rows, P, by simpa using h1⟩

/-- Every stream is served in full. -/
theorem Inv.served {w : TrajWriter} {rows : Nat → List Row} {cr P : List WItem} {cf : List Key} (h : w.Inv rows cr cf P) {s : List Msg}
    (hs : s ∈ w.streams) (srv : Server) : w.Served srv s := by
  obtain ⟨cache, ins, g⟩ := h.stream srv
  rcases List.mem_append.mp hs with hs | hs
  · exact g.past s hs
  · simp only [List.mem_singleton] at hs
    subst hs
    exact ⟨cache, ins, g.served, g.insOK⟩

theorem Inv.infix {w : TrajWriter} {rows : Nat → List Row} {cr P : List WItem} {cf : List Key} (h : w.Inv rows cr cf P) {s : List Msg}
    (hs : s ∈ w.streams) : itemsOf s <:+: cr := by
  rcases List.mem_append.mp hs with hs | hs
  · exact h.q.past s hs
  · simp only [List.mem_singleton] at hs
    subst hs
    have hp := h.q.phase
    have hPcr : P <:+: cr := by rw [h.q.split]; exact (List.prefix_append _ _).isInfix
    have hPit : ∀ it, w.queue.head? = some it → P ++ [it] <:+: cr := by
      intro it hit
      rw [h.q.split]
      cases hq : w.queue with
      | nil => simp [hq] at hit
      | cons x q =>
        simp only [hq, List.head?_cons, Option.some.injEq] at hit
        subst hit
        exact ⟨[], q, by simp⟩
    have hnil : w.msgs = [] → itemsOf w.msgs <:+: cr := fun he => by rw [he]; exact List.nil_infix
    unfold PhaseOK at hp
    cases hph : w.phase <;> simp only [hph] at hp
    case start => exact hnil hp
    case fetch => exact hp.isInfix.trans hPcr
    case chunks => exact hp.2.1.isInfix.trans hPcr
    case check => exact hp.2.isInfix.trans hPcr
    case waiting => exact hp.isInfix.trans hPcr
    case finalize => exact hp.2.1.isInfix.trans hPcr
    case send => exact hp.2.1.isInfix.trans hPcr
    case sent => obtain ⟨it, h1, h2, _⟩ := hp; exact h2.isInfix.trans (hPit it h1)
    case sendFailed it => exact hp.2.isInfix.trans (hPit it hp.1)
    case finish => exact hp
    case ended => exact hp
    case stopped => exact hnil hp

/-- The server keeps only what was sent. -/
theorem serve_from {srv : Server} {cache cache' : Cache} {m : Msg} {i : Option (WItem × List ChunkData)} (h : serve srv cache m = .ok (cache', i))
    {k : Key} (hk : k ∈ cache'.keys) : k ∈ cache.keys ∨ k ∈ m.chunks.map ChunkData.key := by
  rw [← saveChunks_keys srv]
  unfold serve at h
  split at h
  · cases h
  · cases hm : m.item with
    | none =>
      simp only [hm, Res.ok.injEq, Prod.mk.injEq] at h
      rw [h.1]
      exact hk
    | some x =>
      obtain ⟨it, keep⟩ := x
      simp only [hm] at h
      cases hf : findChunks (saveChunks srv cache m.chunks) (getChunkKeys it.traj) with
      | none => simp [hf] at h
      | some chs =>
        simp only [hf] at h
        cases hr : releaseChunks srv (saveChunks srv cache m.chunks) keep with
        | none => simp [hr] at h
        | some c2 =>
          simp only [hr, Res.ok.injEq, Prod.mk.injEq] at h
          obtain ⟨rfl, _⟩ := h
          unfold releaseChunks at hr
          split at hr
          · simp only [Option.some.injEq] at hr
            subst hr
            exact ((AMap.mem_keys_keep _ _ _).mp hk).2
          · cases hr

theorem serveAll_from {srv : Server} : ∀ {s : List Msg} {cache0 cache : Cache} {ins : List (WItem × List ChunkData)},
    serveAll srv cache0 s = .ok (cache, ins) → ∀ k ∈ cache.keys, k ∈ cache0.keys ∨ k ∈ (s.flatMap Msg.chunks).map ChunkData.key
  | [], cache0, cache, ins, h, k, hk => by
    simp only [serveAll, Res.ok.injEq, Prod.mk.injEq] at h
    rw [h.1]; exact .inl hk
  | m :: s, cache0, cache, ins, h, k, hk => by
    simp only [serveAll] at h
    rcases h1 : serve srv cache0 m with ⟨c1, i1⟩ | _ | _ <;> simp only [h1] at h
    · rcases h2 : serveAll srv c1 s with ⟨c2, i2⟩ | _ | _ <;> simp only [h2] at h
      · simp only [Res.ok.injEq, Prod.mk.injEq] at h
        obtain ⟨rfl, _⟩ := h
        rw [List.flatMap_cons, List.map_append, List.mem_append]
        rcases serveAll_from h2 k hk with h3 | h3
        · rcases serve_from h1 h3 with h4 | h4
          · exact .inl h4
          · exact .inr (.inl h4)
        · exact .inr (.inr h3)
      · cases h
      · cases h
    · cases h
    · cases h

end TrajWriter
end Verif
