import Verif.Proofs.QueueService
import Verif.Props.C89_EndToEnd
/-
C112: a queue (or stack) of a server hands every item that producers send to exactly one consumer.
-/
namespace Verif
open Spec (Buf Discipline)

theorem Ledger.rest {m : Discipline} {cap : Nat} {t : Table} {b : Buf} {ins : List (Nat × Key)} {giv : List (Nat × Sampled)} (h : Ledger m cap t b ins giv) :
    (b.items.map Item.key).Perm t.data.keys ∧ t.size ≤ cap := by
  constructor
  · rw [List.perm_ext_iff_of_nodup h.q.tracks.nodup t.data.keys_nodup]
    intro k
    rw [AMap.mem_keys_iff]
    constructor
    · intro hk
      obtain ⟨i, hi, rfl⟩ := List.mem_map.mp hk
      rw [(h.q.tracks.mem _ _).mpr ⟨hi, rfl⟩]
      rfl
    · intro hk
      obtain ⟨i, hi⟩ := Option.isSome_iff_exists.mp hk
      obtain ⟨h1, rfl⟩ := (h.q.tracks.mem _ _).mp hi
      exact List.mem_map_of_mem h1
  · have := h.q.size
    have := h.room
    unfold Table.size
    omega

namespace Service

theorem Books.history {m : Discipline} {cap : Nat} {n : String} {evs : List Event} {v : Service} {ins : List (Nat × Key)} {giv : List (Nat × Sampled)}
    (h : Books m cap n evs v ins giv) : History n evs v ins giv := by
  refine ⟨fun s => (h.booked s).prefix, fun s hs => ?_, h.confirmed, h.got⟩
  have := h.booked s
  obtain ⟨cache, hs | hs⟩ := hs <;> (rw [hs] at this; exact this)

theorem Books.nodup {m : Discipline} {cap : Nat} {n : String} {evs : List Event} {v : Service} {ins : List (Nat × Key)} {giv : List (Nat × Sampled)}
    (h : Books m cap n evs v ins giv) (hu : ((sent n evs).map Prod.snd).Nodup) : (ins.map Prod.snd).Nodup := by
  have key : ∀ (l : List (Nat × Key)), (∀ x ∈ l, x ∈ sent n evs) → (∀ s, (part s l).Nodup) → (l.map Prod.snd).Nodup := by
    intro l
    induction l with
    | nil => intros; exact List.nodup_nil
    | cons x l ih =>
      intro h1 h2
      obtain ⟨s, k⟩ := x
      have hs : ∀ s', part s' ((s, k) :: l) = part s' [(s, k)] ++ part s' l := fun s' => by rw [← part_append]; rfl
      rw [List.map_cons, List.nodup_cons]
      refine ⟨fun hk => ?_, ih (fun x hx => h1 x (List.mem_cons_of_mem _ hx)) fun s' => ?_⟩
      · obtain ⟨⟨s', k'⟩, g1, rfl⟩ := List.mem_map.mp hk
        have := one_stream hu (h1 _ List.mem_cons_self) (h1 _ (List.mem_cons_of_mem _ g1))
        subst this
        have hd := h2 s
        rw [hs, part_one, if_pos rfl, List.nodup_append] at hd
        exact hd.2.2 _ (List.mem_singleton.mpr rfl) _ (mem_part.mpr g1) rfl
      · have hd := h2 s'
        rw [hs, List.nodup_append] at hd
        exact hd.2.1
  exact key ins (fun x hx => h.mem_sent hx) fun s => (part_nodup hu).sublist (h.booked s).prefix.sublist

/-- C112, queues, synchronous server: let no two items for the table have the same key, and let no call delete items. After any schedule of any number of producers and
consumers, the items that were inserted are, in this order, those that were given to consumers and then those that are in the table, of which there are not more than fit.
The items of each producer were inserted in the order in which they were sent, and none is missing if the stream has ended with OK or waits for the next one; all
confirmed ones are among them. The consumers got what was given, each its part, in this order. -/
theorem C112_queue {w : Wire} {cap : Nat} {hcap : 0 < cap} {n : String} {cfgs : AMap String Config} {evs : List Event} {v : Service}
    (hr : (Service.init (newTables cfgs)).run w evs = some v) (hd : v.dead = false) (hc : cfgs.get? n = some (Py.tableQueue cap hcap))
    (hu : ((sent n evs).map Prod.snd).Nodup) (hq : AsQueue n evs) :
    ∃ inserted given t rest, History n evs v inserted given ∧ v.tables.get? n = some t ∧ rest.Perm t.data.keys ∧ t.size ≤ cap ∧
      (inserted.map Prod.snd).Nodup ∧ inserted.map Prod.snd = given.map (fun x => x.2.item.key) ++ rest := by
  obtain ⟨ins, giv, hB⟩ := books (m := .queue) (hcap := hcap) hr hd hc hu hq
  obtain ⟨t, b, ht, hL⟩ := hB.table
  exact ⟨ins, giv, t, _, hB.history, ht, hL.rest.1, hL.rest.2, hB.nodup hu, hL.cons⟩

/-- C112, stacks: the same in any order. -/
theorem C112_stack {w : Wire} {cap : Nat} {hcap : 0 < cap} {n : String} {cfgs : AMap String Config} {evs : List Event} {v : Service}
    (hr : (Service.init (newTables cfgs)).run w evs = some v) (hd : v.dead = false) (hc : cfgs.get? n = some (Py.tableStack cap hcap))
    (hu : ((sent n evs).map Prod.snd).Nodup) (hq : AsQueue n evs) :
    ∃ inserted given t, History n evs v inserted given ∧ v.tables.get? n = some t ∧ t.size ≤ cap ∧
      (inserted.map Prod.snd).Nodup ∧ (inserted.map Prod.snd).Perm (given.map (fun x => x.2.item.key) ++ t.data.keys) := by
  obtain ⟨ins, giv, hB⟩ := books (m := .stack) (hcap := hcap) hr hd hc hu hq
  obtain ⟨t, b, ht, hL⟩ := hB.table
  exact ⟨ins, giv, t, hB.history, ht, hL.rest.2, hB.nodup hu, List.Perm.trans hL.cons (hL.rest.1.append_left _)⟩

/-- Positions in what a stream got are positions in what was given. -/
theorem part_position {α : Type} {q : Nat} : ∀ {l : List (Nat × α)} {i : Nat} {y : α}, (part q l)[i]? = some y → ∃ j : Nat, l[j]? = some (q, y) ∧ (part q (l.take j)).length = i
  | [], _, _, h => by simp [part] at h
  | (q', x) :: l, i, y, h => by
    have hc : part q ((q', x) :: l) = part q [(q', x)] ++ part q l := by rw [← part_append]; rfl
    rw [hc, part_one] at h
    by_cases hq : q' = q
    · subst hq
      rw [if_pos rfl] at h
      cases i with
      | zero => cases h; exact ⟨0, rfl, rfl⟩
      | succ i =>
        obtain ⟨j, h1, h2⟩ := part_position (i := i) h
        refine ⟨j + 1, h1, ?_⟩
        rw [List.take_succ_cons, ← List.singleton_append, part_append, part_one, if_pos rfl, List.length_append, h2]
        simp; omega
    · rw [if_neg hq, List.nil_append] at h
      obtain ⟨j, h1, h2⟩ := part_position h
      refine ⟨j + 1, h1, ?_⟩
      rw [List.take_succ_cons, ← List.singleton_append, part_append, part_one, if_neg hq, List.nil_append, h2]

/-- C112: no item of a queue or stack is given out twice, be it to one consumer or to two. -/
theorem C112_once {w : Wire} {cap : Nat} {hcap : 0 < cap} {n : String} {cfgs : AMap String Config} {evs : List Event} {v : Service}
    (hr : (Service.init (newTables cfgs)).run w evs = some v) (hd : v.dead = false)
    (hc : cfgs.get? n = some (Py.tableQueue cap hcap) ∨ cfgs.get? n = some (Py.tableStack cap hcap))
    (hu : ((sent n evs).map Prod.snd).Nodup) (hq : AsQueue n evs) {q q' i i' : Nat} {y y' : Sampled}
    (h : (takenFrom n (v.got q))[i]? = some y) (h' : (takenFrom n (v.got q'))[i']? = some y') (hk : y.item.key = y'.item.key) : q = q' ∧ i = i' := by
  obtain ⟨given, hg, hn⟩ : ∃ given : List (Nat × Sampled), (∀ q, part q given = takenFrom n (v.got q)) ∧ (given.map fun x => x.2.item.key).Nodup := by
    rcases hc with hc | hc
    · obtain ⟨_, given, _, _, hh, _, _, _, h1, h2⟩ := C112_queue hr hd hc hu hq
      rw [h2] at h1
      exact ⟨given, hh.got, (List.nodup_append.mp h1).1⟩
    · obtain ⟨_, given, _, hh, _, _, h1, h2⟩ := C112_stack hr hd hc hu hq
      exact ⟨given, hh.got, (List.nodup_append.mp (h2.nodup_iff.mp h1)).1⟩
  rw [← hg] at h h'
  obtain ⟨j, a1, a2⟩ := part_position h
  obtain ⟨j', b1, b2⟩ := part_position h'
  have e1 : (given.map fun x => x.2.item.key)[j]? = some y.item.key := by rw [List.getElem?_map, a1]; rfl
  have e2 : (given.map fun x => x.2.item.key)[j']? = some y.item.key := by rw [List.getElem?_map, b1, hk]; rfl
  have hj : j = j' := by
    have l1 : j < (given.map fun x => x.2.item.key).length := (List.getElem?_eq_some_iff.mp e1).1
    exact (List.getElem?_inj l1 hn).mp (e1.trans e2.symm)
  subst hj
  rw [a1] at b1
  cases b1
  exact ⟨rfl, a2.symm.trans b2⟩

/-- C112: every consumer of a queue gets the items of a producer in the order in which the producer sent them. -/
theorem C112_order {w : Wire} {cap : Nat} {hcap : 0 < cap} {n : String} {cfgs : AMap String Config} {evs : List Event} {v : Service}
    (hr : (Service.init (newTables cfgs)).run w evs = some v) (hd : v.dead = false) (hc : cfgs.get? n = some (Py.tableQueue cap hcap))
    (hu : ((sent n evs).map Prod.snd).Nodup) (hq : AsQueue n evs) (q s : Nat) :
    (((takenFrom n (v.got q)).map fun y => y.item.key).filter fun k => k ∈ part s (sent n evs)).Sublist (part s (sent n evs)) := by
  obtain ⟨ins, given, t, rest, hh, _, _, _, hn, he⟩ := C112_queue hr hd hc hu hq
  have h1 : (((takenFrom n (v.got q)).map fun y => y.item.key).filter fun k => k ∈ part s (sent n evs)).Sublist
      ((ins.map Prod.snd).filter fun k => k ∈ part s (sent n evs)) := by
    apply List.Sublist.filter
    rw [← hh.got q, he]
    refine List.Sublist.trans ?_ (List.sublist_append_left _ _)
    unfold part
    rw [List.map_map]
    exact List.filter_sublist.map _
  have h2 : ((ins.map Prod.snd).filter fun k => k ∈ part s (sent n evs)) = part s ins := by
    unfold part
    rw [List.filter_map]
    congr 1
    apply List.filter_congr
    intro x hx
    have hxs : x ∈ sent n evs := by
      obtain ⟨s', k⟩ := x
      exact mem_part.mp ((hh.order s').subset (mem_part.mpr hx))
    simp only [Function.comp, decide_eq_decide]
    constructor
    · intro hm
      have : (s, x.2) ∈ sent n evs := mem_part.mp hm
      exact (one_stream hu this hxs).symm
    · rintro rfl
      exact mem_part.mpr hxs
  rw [h2] at h1
  exact h1.trans (hh.order s).sublist

end Service

namespace QueueDemo

def cfgs : AMap String Config := ⟨[("q", Py.tableQueue 2 (by decide))], by decide⟩

def put (s : Nat) (k : Key) : Service.Event := .insert (.request s (InsertDemo.req k k "q" [] false))

def ins (s : Nat) : Service.Event := .insert (.insert s 0 (draw 0))

def ask (q : Nat) : List Service.Event := [.sample (.request q ⟨"q", 1, none, 1⟩), .sample (.sample q 1 fun _ => draw 0), .sample (.write q true)]

/-- A queue for two items, the producers 0 and 1 and the consumers 5 and 6. The producer 0 has to wait with its second item, 12, until 11 is sampled; at the end the
producer 1 waits with 23. -/
def evs : List Service.Event :=
  [.insert (.start 0), .insert (.start 1), put 0 11, ins 0, put 1 21, ins 1, put 0 12, ins 0, .sample (.start 5), .sample (.start 6)] ++ ask 5 ++ [ins 0] ++ ask 6 ++
  [put 1 22, ins 1, .sample (.next 5)] ++ ask 5 ++ [put 0 13, ins 0, put 1 23, ins 1]

/-- The hypotheses of C112 are met. -/
theorem demo : ∃ v, (Service.init (newTables cfgs)).run SampleDemo.wire evs = some v ∧ v.dead = false ∧ cfgs.get? "q" = some (Py.tableQueue 2 (by decide)) ∧
    ((Service.sent "q" evs).map Prod.snd).Nodup ∧ Service.AsQueue "q" evs ∧
    Service.sent "q" evs = [(0, 11), (1, 21), (0, 12), (1, 22), (0, 13), (1, 23)] ∧
    ((takenFrom "q" (v.got 5)).map fun y => y.item.key) = [11, 12] ∧ ((takenFrom "q" (v.got 6)).map fun y => y.item.key) = [21] ∧
    (v.tables.get? "q").map (fun t => t.data.keys) = some [13, 22] := by
  have h : ((Service.init (newTables cfgs)).run SampleDemo.wire evs).any (fun v => decide (v.dead = false ∧
    ((takenFrom "q" (v.got 5)).map fun y => y.item.key) = [11, 12] ∧ ((takenFrom "q" (v.got 6)).map fun y => y.item.key) = [21] ∧
    (v.tables.get? "q").map (fun t => t.data.keys) = some [13, 22])) = true := by decide +kernel
  rw [Option.any_eq_true] at h
  obtain ⟨v, hv, h⟩ := h
  simp only [decide_eq_true_eq] at h
  refine ⟨v, hv, h.1, rfl, by decide +kernel, ⟨fun us ds hm => ?_, fun hm => ?_, fun s r it hm hit _ => ?_⟩, by decide +kernel, h.2⟩
  · simp [evs, put, ins, ask] at hm
  · simp [evs, put, ins, ask] at hm
  · simp only [evs, put, ins, ask, List.cons_append, List.nil_append, List.mem_cons, List.not_mem_nil, or_false, reduceCtorEq, false_or,
      Service.Event.insert.injEq, SyncServer.Event.request.injEq] at hm
    rcases hm with ⟨_, rfl⟩ | ⟨_, rfl⟩ | ⟨_, rfl⟩ | ⟨_, rfl⟩ | ⟨_, rfl⟩ | ⟨_, rfl⟩ <;> (cases hit; rfl)

end QueueDemo
end Verif
