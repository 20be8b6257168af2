import Verif.Proofs.QueueAsync
/-
C112: a queue (or stack) of the asynchronous server.
-/
namespace Verif.AsyncService
open Spec (Buf Discipline)

/-- C112, queues, asynchronous server: let no two items for the table have the same key, and let no call delete items or close the table. After any schedule of any number
of producers and consumers, of the workers of the tables and of the threads of the executor, the items that the table has accepted are, in this order, those that its
worker has taken for requests, those that are in the table (not more than fit), and those that wait for the worker. The items of each producer were accepted in the order in
which they were sent, and none is missing unless the stream failed or was cancelled; all confirmed ones are among them. Each consumer got, in this order, only samples that were
taken for it, and all of them if its stream goes on and no request of it is outstanding. Missing: samples that were taken for a request which then fails are given to nobody
(`C112_async_lost`). -/
theorem C112_async_queue_partial {w : Wire} (hw : ∀ k, (w.content k).key = k) {cap : Nat} {hcap : 0 < cap} {n : String} {cfgs : AMap String Config} {evs : List Event}
    {v : AsyncService} (hr : (AsyncService.init (newTables cfgs)).run w evs = some v) (hd : v.dead = false) (hc : cfgs.get? n = some (Py.tableQueue cap hcap))
    (hp : Proper cfgs evs) (hu : ((sent n evs).map Prod.snd).Nodup) (hq : AsQueue n evs) :
    ∃ accepted taken t rest, History n evs v accepted taken ∧ v.tables.get? n = some t ∧ rest.Perm t.w.table.data.keys ∧ t.w.table.size ≤ cap ∧
      (accepted.map Prod.snd).Nodup ∧ accepted.map Prod.snd = taken.map (fun x => x.2.item.key) ++ rest ++ t.w.queued.map Item.key := by
  obtain ⟨acc, t, b, ht, hh, hn, hb, he⟩ := books (m := .queue) (hcap := hcap) hw hr hd hc hp hu hq
  refine ⟨acc, _, t, _, hh, ht, hb.ledger.rest.1, hb.ledger.rest.2, hn, ?_⟩
  rw [he]
  congr 1
  have := hb.ledger.cons
  simp only [Conserved, List.map_map, Function.comp_def] at this
  exact this

/-- C112, stacks: the same in any order. -/
theorem C112_async_stack_partial {w : Wire} (hw : ∀ k, (w.content k).key = k) {cap : Nat} {hcap : 0 < cap} {n : String} {cfgs : AMap String Config} {evs : List Event}
    {v : AsyncService} (hr : (AsyncService.init (newTables cfgs)).run w evs = some v) (hd : v.dead = false) (hc : cfgs.get? n = some (Py.tableStack cap hcap))
    (hp : Proper cfgs evs) (hu : ((sent n evs).map Prod.snd).Nodup) (hq : AsQueue n evs) :
    ∃ accepted taken t, History n evs v accepted taken ∧ v.tables.get? n = some t ∧ t.w.table.size ≤ cap ∧
      (accepted.map Prod.snd).Nodup ∧ (accepted.map Prod.snd).Perm (taken.map (fun x => x.2.item.key) ++ t.w.table.data.keys ++ t.w.queued.map Item.key) := by
  obtain ⟨acc, t, b, ht, hh, hn, hb, he⟩ := books (m := .stack) (hcap := hcap) hw hr hd hc hp hu hq
  refine ⟨acc, _, t, hh, ht, hb.ledger.rest.2, hn, ?_⟩
  rw [he]
  refine List.Perm.append_right _ ?_
  have := hb.ledger.cons.perm
  simp only [List.map_map, Function.comp_def] at this
  exact List.Perm.trans this (hb.ledger.rest.1.append_left _)

/-- C112: no item of a queue or stack is given out twice, be it to one consumer or to two. -/
theorem C112_async_once {w : Wire} (hw : ∀ k, (w.content k).key = k) {cap : Nat} {hcap : 0 < cap} {n : String} {cfgs : AMap String Config} {evs : List Event}
    {v : AsyncService} (hr : (AsyncService.init (newTables cfgs)).run w evs = some v) (hd : v.dead = false)
    (hc : cfgs.get? n = some (Py.tableQueue cap hcap) ∨ cfgs.get? n = some (Py.tableStack cap hcap))
    (hp : Proper cfgs evs) (hu : ((sent n evs).map Prod.snd).Nodup) (hq : AsQueue n evs) {q q' i i' : Nat} {y y' : Sampled}
    (h : (takenFrom n (v.got q))[i]? = some y) (h' : (takenFrom n (v.got q'))[i']? = some y') (hk : y.item.key = y'.item.key) : q = q' ∧ i = i' := by
  obtain ⟨taken, hg, hn⟩ : ∃ taken : List (Nat × Sampled), (∀ q, (takenFrom n (v.got q)).Sublist (part (AsyncSampler.reqId q) taken)) ∧
      (taken.map fun x => x.2.item.key).Nodup := by
    rcases hc with hc | hc
    · obtain ⟨_, taken, _, _, hh, _, _, _, h1, h2⟩ := C112_async_queue_partial hw hr hd hc hp hu hq
      rw [h2, List.append_assoc] at h1
      exact ⟨taken, hh.sub, (List.nodup_append.mp h1).1⟩
    · obtain ⟨_, taken, _, hh, _, _, h1, h2⟩ := C112_async_stack_partial hw hr hd hc hp hu hq
      have := h2.nodup_iff.mp h1
      rw [List.append_assoc] at this
      exact ⟨taken, hh.sub, (List.nodup_append.mp this).1⟩
  have m1 : (AsyncSampler.reqId q, y) ∈ taken := mem_part.mp ((hg q).subset (List.mem_of_getElem? h))
  have m2 : (AsyncSampler.reqId q', y') ∈ taken := mem_part.mp ((hg q').subset (List.mem_of_getElem? h'))
  -- one entry for one key
  have inj : ∀ {l : List (Nat × Sampled)}, (l.map fun x => x.2.item.key).Nodup → ∀ {a b : Nat × Sampled}, a ∈ l → b ∈ l → a.2.item.key = b.2.item.key → a = b := by
    intro l
    induction l with
    | nil => intro _ a b ha; cases ha
    | cons x l ih =>
      intro hn a b ha hb e
      rw [List.map_cons, List.nodup_cons] at hn
      rcases List.mem_cons.mp ha with rfl | ha1 <;> rcases List.mem_cons.mp hb with rfl | hb1
      · rfl
      · exact absurd (List.mem_map.mpr ⟨b, hb1, e.symm⟩) hn.1
      · exact absurd (List.mem_map.mpr ⟨a, ha1, e⟩) hn.1
      · exact ih hn.2 ha1 hb1 e
  have e := inj hn m1 m2 hk
  have hqq : q = q' := by
    have : AsyncSampler.reqId q = AsyncSampler.reqId q' := congrArg Prod.fst e
    unfold AsyncSampler.reqId at this
    omega
  subst hqq
  refine ⟨rfl, ?_⟩
  have hnd : ((takenFrom n (v.got q)).map fun y => y.item.key).Nodup := by
    refine hn.sublist (((hg q).map _).trans ?_)
    unfold part
    rw [List.map_map]
    exact List.filter_sublist.map _
  have e1 : ((takenFrom n (v.got q)).map fun y => y.item.key)[i]? = some y.item.key := by rw [List.getElem?_map, h]; rfl
  have e2 : ((takenFrom n (v.got q)).map fun y => y.item.key)[i']? = some y.item.key := by rw [List.getElem?_map, h', hk]; rfl
  exact (List.getElem?_inj (List.getElem?_eq_some_iff.mp e1).1 hnd).mp (e1.trans e2.symm)

/-- C112: every consumer of a queue gets the items of a producer in the order in which the producer sent them. -/
theorem C112_async_order {w : Wire} (hw : ∀ k, (w.content k).key = k) {cap : Nat} {hcap : 0 < cap} {n : String} {cfgs : AMap String Config} {evs : List Event}
    {v : AsyncService} (hr : (AsyncService.init (newTables cfgs)).run w evs = some v) (hd : v.dead = false) (hc : cfgs.get? n = some (Py.tableQueue cap hcap))
    (hp : Proper cfgs evs) (hu : ((sent n evs).map Prod.snd).Nodup) (hq : AsQueue n evs) (q s : Nat) :
    (((takenFrom n (v.got q)).map fun y => y.item.key).filter fun k => k ∈ part s (sent n evs)).Sublist (part s (sent n evs)) := by
  obtain ⟨acc, taken, t, rest, hh, _, _, _, hn, he⟩ := C112_async_queue_partial hw hr hd hc hp hu hq
  have h1 : (((takenFrom n (v.got q)).map fun y => y.item.key).filter fun k => k ∈ part s (sent n evs)).Sublist
      ((acc.map Prod.snd).filter fun k => k ∈ part s (sent n evs)) := by
    apply List.Sublist.filter
    rw [he, List.append_assoc]
    refine List.Sublist.trans (((hh.sub q).map _).trans ?_) (List.sublist_append_left _ _)
    unfold part
    rw [List.map_map]
    exact List.filter_sublist.map _
  have h2 : ((acc.map Prod.snd).filter fun k => k ∈ part s (sent n evs)) = part s acc := by
    unfold part
    rw [List.filter_map]
    congr 1
    apply List.filter_congr
    intro x hx
    have hxs : x ∈ sent n evs := mem_part.mp ((hh.order x.1).subset (mem_part.mpr hx))
    have : x.2 ∈ part s (sent n evs) ↔ x.1 = s := by
      rw [mem_part]
      constructor
      · intro g; exact Service.one_stream hu hxs g
      · rintro rfl; exact hxs
    unfold part at this
    simp only [Function.comp_apply, decide_eq_decide, this]
  rw [h2] at h1
  exact h1.trans (hh.order s).sublist

namespace QueueDemo

def cfgs : AMap String Config := ⟨[("q", Py.tableQueue 2 (by decide))], by decide⟩

def put (s : Nat) (k : Key) : Event := .insert (.read s (some (InsertDemo.req k k "q" [] true)))

def work (n : Nat) (now : Int) : List Event := List.replicate n (.table "q" (.work now (draw 0)))

def ask (q : Nat) (n : Int) (now : Int) : Event := .sample (.read q (some ⟨"q", n, some 50, n⟩) now)

/-- A queue for two items, the producers 0 and 1 and the consumers 5 and 6. The producers send two items each; the consumer 5 asks for one sample and gets 11, so that 12 can be
inserted and 22 waits. -/
def evs : List Event :=
  [.insert (.start 0), .insert (.start 1), put 0 11, put 1 21] ++ work 16 10 ++
  [.deliver "q" 0 20, .deliver "q" 0 20, .insert (.call "q" 0), .insert (.call "q" 0), .insert (.write 0 true), .insert (.write 1 true), put 0 12, put 1 22,
    .table "q" .wake] ++ work 9 20 ++
  [.sample (.start 5), .sample (.start 6), ask 5 1 30, .table "q" .wake] ++ work 17 30 ++ [.deliver "q" 2 40, .sample (.write 5 true)]

/-- Then the consumer 6 asks for four samples. The worker takes three for it before the time is over. -/
def lost : List Event := evs ++ [ask 6 4 40, .table "q" .wake] ++ work 20 40 ++ [.table "q" .wake] ++ work 10 100000000 ++ [.deliver "q" 2 100000000]

theorem proper (evs : List Event) : Proper cfgs evs := by
  have h : ∀ name c, cfgs.get? name = some c → ∀ p, c.admits p := by
    intro name c hc p
    simp only [cfgs, AMap.get?, List.lookup_cons] at hc
    split at hc
    · cases hc; exact ⟨rfl, rfl⟩
    · cases hc
  exact ⟨fun s r _ it _ c hc => h _ c hc _, fun name us ds _ c hc u _ => h _ c hc _⟩

/-- Whether an event fits to a queue. -/
def fits : Event → Bool
  | .table _ (.mutate _ ds) => ds.isEmpty
  | .table _ .reset => false
  | .table _ .close => false
  | .insert (.read _ (some r)) => r.item.all fun it => it.timesSampled == 0
  | _ => true

theorem asQueue {evs : List Event} (h : evs.all fits = true) : AsQueue "q" evs := by
  have h' := List.all_eq_true.mp h
  refine ⟨fun us ds hm => ?_, fun hm => ?_, fun hm => ?_, fun s r it hm hit _ => ?_⟩
  · simpa [fits] using h' _ hm
  · cases h' _ hm
  · cases h' _ hm
  · have := h' _ hm
    simp only [fits, hit] at this
    simpa using this

/-- The hypotheses of C112 are met. -/
theorem demo : ∃ v, (AsyncService.init (newTables cfgs)).run SampleDemo.wire evs = some v ∧ v.dead = false ∧ cfgs.get? "q" = some (Py.tableQueue 2 (by decide)) ∧
    (∀ k, (SampleDemo.wire.content k).key = k) ∧ Proper cfgs evs ∧ ((sent "q" evs).map Prod.snd).Nodup ∧ AsQueue "q" evs ∧
    sent "q" evs = [(0, 11), (1, 21), (0, 12), (1, 22)] ∧
    ((takenFrom "q" (v.got 5)).map fun y => y.item.key) = [11] ∧ (v.samples.get? 5).map (fun r => (r.finished, r.waiting)) = some (none, false) ∧
    (v.tables.get? "q").map (fun t => (t.w.table.data.keys, t.w.queued.map Item.key)) = some ([12, 21], [22]) := by
  have h : ((AsyncService.init (newTables cfgs)).run SampleDemo.wire evs).any (fun v => decide (v.dead = false ∧
    ((takenFrom "q" (v.got 5)).map fun y => y.item.key) = [11] ∧ (v.samples.get? 5).map (fun r => (r.finished, r.waiting)) = some (none, false) ∧
    (v.tables.get? "q").map (fun t => (t.w.table.data.keys, t.w.queued.map Item.key)) = some ([12, 21], [22]))) = true := by decide +kernel
  rw [Option.any_eq_true] at h
  obtain ⟨v, hv, h⟩ := h
  simp only [decide_eq_true_eq] at h
  exact ⟨v, hv, h.1, rfl, fun _ => rfl, proper _, by decide +kernel, asQueue (by decide +kernel), by decide +kernel, h.2⟩

end QueueDemo

open QueueDemo in
/-- C112 fails on the asynchronous server: the consumer 6 asks for four samples with a timeout. The worker takes three items, removes them from the queue, and then the request
times out. The items 12, 21 and 22, all of which were confirmed to the producers, are neither in the table nor do they wait for it, and no consumer gets them: the stream of
the consumer 6 has ended, and the consumer 5 has only got the item 11. -/
theorem C112_async_lost : ∃ v, (AsyncService.init (newTables cfgs)).run SampleDemo.wire lost = some v ∧ v.dead = false ∧ Proper cfgs lost ∧
    ((sent "q" lost).map Prod.snd).Nodup ∧ AsQueue "q" lost ∧
    (v.inserts.get? 0).map InsReactor.sent = some [("q", 11), ("q", 12)] ∧ (v.inserts.get? 1).map InsReactor.sent = some [("q", 21), ("q", 22)] ∧
    (v.tables.get? "q").map (fun t => (t.w.table.data.keys, t.w.queued.map Item.key)) = some ([], []) ∧
    v.samples.keys = [6, 5] ∧ ((v.got 5).map fun y => y.2.item.key) = [11] ∧ v.got 6 = [] ∧
    (v.samples.get? 6).map SampReactor.finished = some (some (some .deadlineExceeded)) := by
  have h : ((AsyncService.init (newTables cfgs)).run SampleDemo.wire lost).any (fun v => decide (v.dead = false ∧
    (v.inserts.get? 0).map InsReactor.sent = some [("q", 11), ("q", 12)] ∧ (v.inserts.get? 1).map InsReactor.sent = some [("q", 21), ("q", 22)] ∧
    (v.tables.get? "q").map (fun t => (t.w.table.data.keys, t.w.queued.map Item.key)) = some ([], []) ∧
    v.samples.keys = [6, 5] ∧ ((v.got 5).map fun y => y.2.item.key) = [11] ∧ ((v.got 6).map fun y => y.2.item.key) = [] ∧
    (v.samples.get? 6).map SampReactor.finished = some (some (some .deadlineExceeded)))) = true := by decide +kernel
  rw [Option.any_eq_true] at h
  obtain ⟨v, hv, h⟩ := h
  simp only [decide_eq_true_eq] at h
  obtain ⟨h1, h2, h3, h4, h5, h6, h7, h8⟩ := h
  exact ⟨v, hv, h1, proper _, by decide +kernel, asQueue (by decide +kernel), h2, h3, h4, h5, h6, by simpa using h7, h8⟩

end Verif.AsyncService
