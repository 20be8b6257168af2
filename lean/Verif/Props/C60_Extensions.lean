import Verif.Proofs.ExtMore
import Verif.Props.C24_Errors
import Verif.Props.C19_C21_C54_Accounting
/-
C60: calls of a table take effect atomically. C54 for asynchronous extensions. C75: a caller that waits for the extension worker is woken.
C76: the destructor of a table returns.
-/
namespace Verif
namespace Ext

open Table (Op Reply)

/-- C60, as long as nobody comes to the table while a caller waits in `ExtensionOperation`: for any number of threads and every
interleaving, each call took effect at one moment, between its beginning and its end. These moments, in the order of `returned`, make a
sequence of calls one after the other that gives every caller the reply it got; whoever read the table saw it between two of them; and when
nobody waits there the table is what this sequence leaves behind. The calls of each thread begin and end in turn. What is missing: calls that
come while a caller waits there (`C60_read_false`, `C60_dies_false`). -/
theorem C60_partial (c : Cfg) (t0 : Table) (es : List Event) (s : State) (ha : Apart c (init t0) es) (h : run c (init t0) es = .next s) :
    t0.replies ((returned s.trace).map Prod.fst) = (returned s.trace).map Prod.snd ∧
    (s.Quiet → t0.run ((returned s.trace).map Prod.fst) = some s.t) ∧
    (∀ pre t post, s.trace = pre ++ .read t :: post → t0.run ((returned pre).map Prod.fst) = some t) ∧
    ∀ tid, ∃ o, Calls tid s.trace o := by
  have hi := run_inv es (init_inv c t0) ha h
  obtain ⟨tb, _, h2, _⟩ := hi.main
  refine ⟨h2, fun hq => (hi.quiet hq).1, hi.reads, fun tid => ?_⟩
  exact (run_calls es h (fun tid => by simp [init, CallsInv]; exact .nil) tid).calls

/-- C60: without an extension worker nobody ever waits in `ExtensionOperation`, and `C60_partial` is about every run. -/
theorem C60_no_worker (c : Cfg) (hw : c.worker = false) (t0 : Table) (es : List Event) : Apart c (init t0) es :=
  apart_off hw es fun tid th h => by simp [init] at h

/-- C60: if all calls are made by one thread and nobody else reads the table, `C60_partial` is about every run. -/
theorem C60_one_thread (c : Cfg) (t0 : Table) (tid : Nat) (es : List Event)
    (he : ∀ e ∈ es, e ≠ .read ∧ ∀ tid', e.tid? = some tid' → tid' = tid) : Apart c (init t0) es :=
  apart_single tid es he fun tid' th h => by simp [init] at h

/-- C60, C24: under the same condition, calls whose priorities the selectors admit do not kill the process, and the table is at quiet
moments one that calls one after the other lead to. -/
theorem C60_alive_partial (c : Cfg) (cfg : Config) (es : List Event) (ha : Apart c (init cfg.init) es)
    (he : ∀ e ∈ es, ∀ op, e.op? = some op → cfg.Admissible op) :
    run c (init cfg.init) es ≠ .died ∧ ∀ s, run c (init cfg.init) es = .next s → s.Quiet → cfg.Reachable s.t := by
  have hal := run_alive (P := cfg.Admissible) (c := c) (t0 := cfg.init) trivial
    (fun ops tb op h1 h2 h3 => (C24_no_fatal_request_partial cfg tb ⟨ops, h1, h2⟩ op h3).1) es (init_inv c _) (init_only _ _) ha he
  refine ⟨hal.1, fun s hs hq => ?_⟩
  exact ⟨s.ops, (hal.2 s hs).ops, ((run_inv es (init_inv c _) ha hs).quiet hq).1⟩

/-- C54, for asynchronous extensions, as long as nobody comes to the table while a caller waits in `ExtensionOperation`: what they have been
told, followed by what is on its way to them, is what a synchronous extension has been told, in the same order. What is missing: calls that
come while a caller waits there (`C54_async_false`). -/
theorem C54_async_partial (c : Cfg) (hw : c.worker = true) (hc : c.async = true) (cfg : Config) (es : List Event) (s : State)
    (ha : Apart c (init cfg.init) es) (h : run c (init cfg.init) es = .next s) (hq : s.Quiet) : s.seen ++ s.taken ++ s.reqs = s.t.log := by
  have hi := ((run_inv es (init_inv c _) ha h).quiet hq).2.2
  have hp : ∀ l : List ExtEvent, l.filter c.passes = l := fun l =>
    List.filter_eq_self.mpr fun e _ => by cases e <;> simp [Cfg.passes, Cfg.enqueues, hw, hc]
  rw [hp, hp] at hi
  exact hi

/-- C54: and when the extension worker sleeps, what they have been told is all of it; the items they can reconstruct are those of the
table. -/
theorem C54_async_asleep_partial (c : Cfg) (hw : c.worker = true) (hc : c.async = true) (cfg : Config) (es : List Event) (s : State)
    (ha : Apart c (init cfg.init) es) (he : ∀ e ∈ es, ∀ op, e.op? = some op → cfg.Admissible op)
    (h : run c (init cfg.init) es = .next s) (hq : s.Quiet) (hs : s.phase = .asleep) :
    s.seen = s.t.log ∧ ∃ l, Spec.live s.seen = some l ∧ ∀ k it, s.t.get k = some it ↔ it ∈ l ∧ it.key = k := by
  have hi := run_inv es (init_inv c _) ha h
  have h1 := C54_async_partial c hw hc cfg es s ha h hq
  rw [hi.worker.asleep hs, hi.worker.taken (by rw [hs]; decide), List.append_nil, List.append_nil] at h1
  obtain ⟨l, a, _, _, b⟩ := C54_notifications cfg s.t ((C60_alive_partial c cfg es ha he).2 s h hq)
  exact ⟨h1, l, by rw [h1]; exact a, b⟩

/-! A table for three items with an asynchronous extension and room for one request. -/

def demo : Cfg := ⟨true, true, 1⟩

def at? : Outcome → Option State
  | .next s => some s
  | _ => none

def ins (k : Key) : Op := .insert (demoItem k 1 (10 * k) 100) 0 (draw 0)

/-- Two threads, with waits for the extension worker; nobody comes in between. -/
def demoEvents : List Event :=
  [.start, .call 1 (ins 1), .call 2 (ins 2), .check, .lock (some 2), .push 2, .handle, .check, .lock none, .handle, .check, .lock none,
   .call 1 (.mutate [(1, .val 3)] [2]), .lock (some 1), .push 1, .read]

instance (s : State) : Decidable s.Quiet :=
  decidable_of_iff (∀ p ∈ s.threads.entries, p.2.inBuffer = false)
    ⟨fun h tid th hg => h (tid, th) ((AMap.mem_entries_iff _ _ _).mpr hg), fun h p hp => h p.1 p.2 ((AMap.mem_entries_iff _ _ _).mp hp)⟩

instance decApart (c : Cfg) : (es : List Event) → (s : State) → Decidable (Apart c s es)
  | [], _ => isTrue trivial
  | e :: es, s =>
    match hs : step c s e with
    | .impossible => isTrue ⟨fun _ h => absurd hs h, fun s' h => by rw [hs] at h; cases h⟩
    | .died => decidable_of_iff (e.enters = true → s.Quiet)
      ⟨fun h => ⟨fun a _ => h a, fun s' h => by rw [hs] at h; cases h⟩, fun h a => h.1 a (by rw [hs]; simp)⟩
    | .next s1 =>
      have := decApart c es s1
      decidable_of_iff ((e.enters = true → s.Quiet) ∧ Apart c s1 es)
        ⟨fun h => ⟨fun a _ => h.1 a, fun s' h' => by rw [hs] at h'; cases h'; exact h.2⟩,
          fun h => ⟨fun a => h.1 a (by rw [hs]; simp), h.2 s1 hs⟩⟩

theorem demo_apart : Apart demo (init demoCfg.init) demoEvents := by decide +kernel

example : ((at? (run demo (init demoCfg.init) demoEvents)).map fun s =>
    (decide s.Quiet, (returned s.trace).length, s.seen.length, s.reqs.length, s.t.log.length)) = some (true, 3, 2, 1, 4) := by decide +kernel

theorem at?_eq {o : Outcome} {s : State} (h : at? o = some s) : o = .next s := by
  cases o <;> simp_all [at?]

/-- The demonstration meets the hypotheses of `C60_partial`, `C60_alive_partial` and `C54_async_partial`. -/
example : ∃ s, run demo (init demoCfg.init) demoEvents = .next s ∧ Apart demo (init demoCfg.init) demoEvents ∧ s.Quiet ∧
    (∀ e ∈ demoEvents, ∀ op, e.op? = some op → demoCfg.Admissible op) ∧ (returned s.trace).length = 3 ∧ s.seen ≠ [] := by
  have h : (at? (run demo (init demoCfg.init) demoEvents)).any (fun s =>
    decide s.Quiet && decide ((returned s.trace).length = 3) && !s.seen.isEmpty) = true := by decide +kernel
  obtain ⟨s, hs, h⟩ := (Option.any_eq_true _ _).mp h
  simp only [Bool.and_eq_true, decide_eq_true_eq, Bool.not_eq_true', List.isEmpty_eq_false_iff] at h
  refine ⟨s, at?_eq hs, demo_apart, h.1.1, ?_, h.1.2, h.2⟩
  have : ∀ e ∈ demoEvents, (match e.op? with | some op => decide (demoCfg.Admissible op) | none => true) = true := by decide +kernel
  intro e he op ho
  have h1 := this e he
  rw [ho] at h1
  exact of_decide_eq_true h1

/-- C60 is false: an item is inserted; a second thread deletes it and waits for the extension worker; a third one looks. It finds the item,
but the episode that the item belongs to has already been taken from the count (table.cc:837-845). No calls one after the other lead to such a
table. -/
theorem C60_read_false : ∃ es s t, run demo (init demoCfg.init) es = .next s ∧ (∀ e ∈ es, ∀ op, e.op? = some op → demoCfg.Admissible op) ∧
    .read t ∈ s.trace ∧ (t.get 1).isSome = true ∧ t.numEpisodes = 0 ∧ ¬ demoCfg.Reachable t := by
  have h : (at? (run demo (init demoCfg.init) [.start, .call 1 (ins 1), .call 2 (.mutate [] [1]), .read])).any (fun s =>
    s.trace.any fun e =>
      match e with
      | .read t => (t.get 1).any (fun it => decide (it.key = 1) && !it.chunks.isEmpty) && decide (t.numEpisodes = 0)
      | _ => false) = true := by decide +kernel
  obtain ⟨s, hs, h⟩ := (Option.any_eq_true _ _).mp h
  obtain ⟨e, he, h⟩ := List.any_eq_true.mp h
  cases e with
  | read t =>
    simp only [Bool.and_eq_true, decide_eq_true_eq] at h
    obtain ⟨h1, h2⟩ := h
    obtain ⟨it, hi, h1⟩ := (Option.any_eq_true _ _).mp h1
    simp only [Bool.and_eq_true, decide_eq_true_eq, Bool.not_eq_true', List.isEmpty_eq_false_iff] at h1
    refine ⟨_, s, t, at?_eq hs, ?_, he, by rw [hi]; rfl, h2, ?_⟩
    · intro e he op ho
      simp only [List.mem_cons, List.not_mem_nil, or_false] at he
      rcases he with rfl | rfl | rfl | rfl <;> cases ho <;> decide +kernel
    · intro hr
      obtain ⟨l, a, b, _⟩ := C19_episodes demoCfg t hr
      have hm := (a it).mpr (by rw [h1.1]; exact hi)
      obtain ⟨ch, hch⟩ := List.exists_mem_of_ne_nil _ h1.2
      have : ch.episode ∈ Spec.episodes l := by
        unfold Spec.episodes
        rw [List.mem_eraseDups, List.mem_flatMap]
        exact ⟨it, hm, List.mem_map_of_mem hch⟩
      have := List.length_pos_of_mem this
      omega
  | _ => cases h

/-- C60 is false: if a third thread deletes the item instead, it takes the episode from the count again and the process dies
(table.cc:839). -/
theorem C60_dies_false : ∃ es, (∀ e ∈ es, ∀ op, e.op? = some op → demoCfg.Admissible op) ∧ run demo (init demoCfg.init) es = .died := by
  refine ⟨[.start, .call 1 (ins 1), .call 2 (.mutate [] [1]), .call 3 (.mutate [] [1])], ?_, ?_⟩
  · intro e he op ho
    simp only [List.mem_cons, List.not_mem_nil, or_false] at he
    rcases he with rfl | rfl | rfl | rfl <;> cases ho <;> decide +kernel
  · have : (match run demo (init demoCfg.init) [.start, .call 1 (ins 1), .call 2 (.mutate [] [1]), .call 3 (.mutate [] [1])] with
      | .died => true
      | _ => false) = true := by decide +kernel
    split at this
    · assumption
    · cases this

/-- C54 is false for asynchronous extensions: a thread inserts an item and waits for the extension worker; it is signalled, but another
thread is first and samples the item. When all is done the extension has seen a sample of an item that it did not know, and the insertion
after it. -/
theorem C54_async_false : ∃ es s, run demo (init demoCfg.init) es = .next s ∧ (∀ e ∈ es, ∀ op, e.op? = some op → demoCfg.Admissible op) ∧
    s.Quiet ∧ s.phase = .asleep ∧ Spec.live s.seen = none ∧ (Spec.live s.t.log).isSome = true := by
  let es : List Event := [.start, .call 1 (ins 1), .check, .lock none, .handle, .check, .lock none, .call 1 (ins 2), .lock none, .handle,
    .check, .lock none, .call 1 (.mutate [(1, .val 1)] []), .call 1 (ins 3), .lock (some 1), .handle,
    .call 2 (.sample 1 (fun _ => draw 0 (1/2))), .push 1, .check, .lock (some 1), .push 1, .handle, .check, .lock none, .handle, .check,
    .lock none]
  have h : (at? (run demo (init demoCfg.init) es)).any (fun s =>
    decide s.Quiet && decide (s.phase = .asleep) && (Spec.live s.seen).isNone && (Spec.live s.t.log).isSome) = true := by decide +kernel
  have ho : ∀ e ∈ es, (match e.op? with | some op => decide (demoCfg.Admissible op) | none => true) = true := by decide +kernel
  obtain ⟨s, hs, h⟩ := (Option.any_eq_true _ _).mp h
  simp only [Bool.and_eq_true, decide_eq_true_eq, Option.isNone_iff_eq_none] at h
  refine ⟨es, s, at?_eq hs, ?_, h.1.1.1, h.1.1.2, h.1.2, h.2⟩
  intro e he op hop
  have h1 := ho e he
  rw [hop] at h1
  exact of_decide_eq_true h1

/-- C75, as long as nobody comes to the table while a caller waits in `ExtensionOperation`: if it waits and has not been signalled, there is
no room for its request, the extension worker is not asleep, and when it next takes its requests there is room and the caller has been
signalled. What is missing: several callers that wait (`C75_false`). -/
theorem C75_partial (c : Cfg) (hm : 1 ≤ c.maxOps) (t0 : Table) (es : List Event) (s : State) (ha : Apart c (init t0) es)
    (h : run c (init t0) es = .next s) (tid : Nat) (hu : s.Unsignalled tid) :
    c.maxOps ≤ s.reqs.length ∧ s.phase ≠ .asleep ∧
    ∀ who s', step c s (.lock who) = .next s' → s'.reqs = [] ∧ s'.Waits tid ∧ ¬ s'.Unsignalled tid := by
  have hi := run_inv es (init_inv c t0) ha h
  obtain ⟨th, hg, hu⟩ := hu
  obtain ⟨tb, _, _, hb⟩ := hi.main
  cases th with
  | limiter => cases hu
  | reset => cases hu
  | buffer op awake kind key next =>
    simp [Thread.unsignalled] at hu
    subst hu
    cases hb with
    | quiet hq => have := hq tid _ hg; simp [Thread.inBuffer] at this
    | inside tid1 op1 awake1 kind1 key1 next1 evs a1 a2 a3 a4 a5 a6 a7 =>
      have := a2 tid _ hg rfl
      subst this
      rw [hg] at a1
      cases a1
      have hfull := a7 rfl
      have hne : s.reqs ≠ [] := fun h0 => by rw [h0] at hfull; simp at hfull; omega
      refine ⟨hfull, fun hp => hne (hi.worker.asleep hp), fun who s' hs => ?_⟩
      have ht : s.take c who = some s' := by
        unfold step at hs
        dsimp only at hs
        rw [if_neg hne] at hs
        split at hs
        · exact Outcome.guard_next hs
        · split at hs
          · exact Outcome.guard_next hs
          · cases hs
      unfold State.take at ht
      dsimp only at ht
      rw [if_pos hfull] at ht
      split at ht
      · rename_i w
        obtain ⟨op2, awake2, kind2, key2, next2, b1, rfl⟩ := signal_spec ht
        have := a2 w _ b1 rfl
        subst this
        refine ⟨rfl, ⟨_, AMap.get?_insert_self _ _ _, rfl⟩, fun ⟨th, b2, b3⟩ => ?_⟩
        simp only [AMap.get?_insert_self] at b2
        cases b2
        cases b3
      · split at ht
        · cases ht
        · rename_i hn
          exact absurd (List.any_eq_true.mpr ⟨(tid, _), (AMap.mem_entries_iff _ _ _).mpr hg, rfl⟩) hn

/-- Two items, two requests of room. -/
def demo2 : Cfg := ⟨true, true, 2⟩

/-- C75 is false: two callers wait for room for their requests. The extension worker takes all requests and signals one of them
(table.cc:379-382). The request of that one leaves room for another, so nobody is signalled again: the second one goes on waiting with no
request before it and the extension worker asleep, until other calls have filled the buffer again. -/
theorem C75_false : ∃ es s, run demo2 (init demoCfg.init) es = .next s ∧ s.reqs = [] ∧ s.phase = .asleep ∧ s.Unsignalled 4 ∧
    ∀ es', (∀ e ∈ es', e.op? = none ∧ e ≠ .signalAll ∧ e ≠ .spurious 4) → ∀ s', run demo2 s es' = .next s' → s'.Unsignalled 4 := by
  let es : List Event := [.start, .call 1 (ins 1), .call 2 (ins 2), .call 3 (.mutate [(1, .val 2)] []), .call 4 (.mutate [(2, .val 2)] []),
    .check, .lock (some 3), .push 3, .handle, .check, .lock none, .handle, .check, .lock none]
  have h : (at? (run demo2 (init demoCfg.init) es)).any (fun s =>
    s.reqs.isEmpty && decide (s.phase = .asleep) && (s.threads.get? 4).any Thread.unsignalled &&
      decide (s.threads.entries.map Prod.fst = [4])) = true := by decide +kernel
  obtain ⟨s, hs, h⟩ := (Option.any_eq_true _ _).mp h
  simp only [Bool.and_eq_true, decide_eq_true_eq, List.isEmpty_iff] at h
  obtain ⟨⟨⟨h1, h2⟩, h3⟩, h4⟩ := h
  have hst : Stranded s 4 := ⟨h2, fun tid' th hg => by
    have := List.mem_map_of_mem (f := Prod.fst) ((AMap.mem_entries_iff _ _ _).mpr hg)
    rw [h4] at this
    simpa using this, (Option.any_eq_true _ _).mp h3⟩
  exact ⟨es, s, at?_eq hs, h1, h2, hst.waits, fun es' he s' hs' => (hst.stays es' he s' hs').waits⟩

/-! C76. -/

/-- C76, for the extension worker, if after `stop_worker_` was set it does not wait and is not about to: whatever it does, it has ended after
at most three steps, and until then it can go on. What is missing: the other cases (`C76_asleep_false`), and callers that it leaves behind
(`C76_waiting_false`). -/
theorem C76_partial (c : Cfg) (hw : c.worker = true) (s : State) (h : s.Ends) (es : List Event) (he : ∀ e ∈ es, e.ofWorker = true) (s' : State)
    (hs : run c s es = .next s') :
    es.length ≤ 3 ∧ (s'.phase = .ended ∨ ∃ e s'', e.ofWorker = true ∧ step c s' e = .next s'') := by
  have key : es.length + s'.left ≤ s.left ∧ s'.Ends := by
    induction es generalizing s with
    | nil => cases hs; exact ⟨by simp, h⟩
    | cons e es ih =>
      rw [run] at hs
      split at hs
      · rename_i s1 hs1
        obtain ⟨a, b⟩ := Ends.step h (he e (List.mem_cons_self ..)) hs1
        obtain ⟨d, f⟩ := ih s1 a (fun e' h' => he e' (List.mem_cons_of_mem _ h')) hs
        exact ⟨by simp only [List.length_cons]; omega, f⟩
      · rename_i o hn
        exact absurd hs (hn s')
  obtain ⟨h1, h2, h3, h4⟩ := key
  refine ⟨?_, ?_⟩
  · have : s.left ≤ 3 := by unfold State.left; split <;> omega
    omega
  · cases hp : s'.phase with
    | starting => exact .inr ⟨.start, _, rfl, by rw [step, if_pos ⟨hw, hp⟩]⟩
    | top => exact .inr ⟨.check, _, rfl, by rw [step, if_pos hp]⟩
    | checked =>
      obtain ⟨who, s'', ht⟩ := take_some c s'
      refine .inr ⟨.lock who, s'', rfl, ?_⟩
      unfold step
      dsimp only
      rw [if_pos hp, if_neg (h4 hp), ht]
      rfl
    | asleep => exact absurd hp h3
    | woken =>
      obtain ⟨who, s'', ht⟩ := take_some c s'
      refine .inr ⟨.lock who, s'', rfl, ?_⟩
      unfold step
      dsimp only
      rw [if_neg (by rw [hp]; simp), if_pos hp, ht]
      rfl
    | busy => exact .inr ⟨.handle, _, rfl, by rw [step, if_pos hp]⟩
    | ended => exact .inl rfl

/-- A worker that handles requests when the destructor comes. -/
example : ∃ s, run demo (init demoCfg.init) [.start, .call 1 (ins 1), .check, .lock none, .stop, .signalAll] = .next s ∧ s.Ends ∧ s.taken ≠ [] := by
  have h : (at? (run demo (init demoCfg.init) [.start, .call 1 (ins 1), .check, .lock none, .stop, .signalAll])).any (fun s =>
    s.stop && decide (s.phase = .busy) && !s.taken.isEmpty) = true := by decide +kernel
  obtain ⟨s, hs, h⟩ := (Option.any_eq_true _ _).mp h
  simp only [Bool.and_eq_true, decide_eq_true_eq, Bool.not_eq_true', List.isEmpty_eq_false_iff] at h
  exact ⟨s, at?_eq hs, ⟨h.1.1, by rw [h.1.2]; simp, by rw [h.1.2]; simp⟩, h.2⟩

/-- C76 is false: the extension worker finds `stop_worker_` false (table.cc:359-363); the destructor sets it and signals all waiters
(table.cc:160-168); then the extension worker waits (table.cc:372-376). Nobody uses the table any more, and the worker never ends: the destructor
waits for it (table.cc:172). -/
theorem C76_asleep_false : ∃ es s, run demo (init demoCfg.init) es = .next s ∧ Event.stop ∈ es ∧ Event.signalAll ∈ es ∧ s.threads.entries = [] ∧
    ∀ es', (∀ e ∈ es', e.op? = none ∧ e ≠ .signalAll) → ∀ s', run demo s es' = .next s' → s'.phase = .asleep := by
  have h : (at? (run demo (init demoCfg.init) [.start, .check, .stop, .signalAll, .lock none])).any (fun s =>
    decide (s.phase = .asleep) && s.threads.entries.isEmpty) = true := by decide +kernel
  obtain ⟨s, hs, h⟩ := (Option.any_eq_true _ _).mp h
  simp only [Bool.and_eq_true, decide_eq_true_eq, List.isEmpty_iff] at h
  refine ⟨_, s, at?_eq hs, by simp, by simp, h.2, ?_⟩
  intro es' he s' hs'
  obtain ⟨hp, hth⟩ := h
  clear hs
  induction es' generalizing s with
  | nil => cases hs'; exact hp
  | cons e es ih =>
    obtain ⟨h1, h2⟩ := he e (List.mem_cons_self ..)
    have none : ∀ t1, s.threads.get? t1 = Option.none := fun t1 =>
      Classical.byContradiction fun hn =>
        match Option.ne_none_iff_exists'.mp hn with
        | ⟨th', h'⟩ => by
          have := (AMap.mem_entries_iff _ _ _).mpr h'
          rw [hth] at this
          cases this
    rw [run] at hs'
    split at hs'
    · rename_i s1 hs1
      have : s1.phase = .asleep ∧ s1.threads = s.threads := by
        cases e with
        | call => cases h1
        | resume => cases h1
        | timeout t1 => rw [step, none] at hs1; cases hs1
        | drained t1 => rw [step, none] at hs1; cases hs1
        | push t1 => rw [step, none] at hs1; cases hs1
        | spurious t1 => rw [step, State.signal, none] at hs1; cases hs1
        | read => cases hs1; exact ⟨hp, rfl⟩
        | start => rw [step, hp] at hs1; simp at hs1
        | check => rw [step, hp] at hs1; simp at hs1
        | lock who => unfold step at hs1; simp [hp] at hs1
        | handle => rw [step, hp] at hs1; simp at hs1
        | stop => cases hs1; exact ⟨hp, rfl⟩
        | signalAll => exact absurd rfl h2
      exact ih s1 (fun e' h' => he e' (List.mem_cons_of_mem _ h')) hs' this.1 (by rw [this.2]; exact hth)
    · rename_i o hn
      exact absurd hs' (hn s')

/-- C76 is false: the table worker waits for room for a request when the destructor comes. The extension worker finds `stop_worker_` true and
ends without taking the requests (table.cc:359-363); the table worker, signalled or not, finds no room and waits again (table.cc:896-899). It
never ends, and the destructor waits for it (table.cc:170). -/
theorem C76_waiting_false : ∃ es s, run demo (init demoCfg.init) es = .next s ∧ Event.stop ∈ es ∧ Event.signalAll ∈ es ∧ s.phase = .ended ∧
    ∀ es', (∀ e ∈ es', e.op? = none) → ∀ s', run demo s es' = .next s' → s'.Waits 1 := by
  have h : (at? (run demo (init demoCfg.init) [.start, .call 1 (.workerInsert (demoItem 1 1 10 100) 0 (draw 0)),
      .call 1 (.workerInsert (demoItem 2 1 20 100) 0 (draw 0)), .stop, .signalAll, .check])).any (fun s =>
    decide (s.phase = .ended) && decide (demo.maxOps ≤ s.reqs.length) && decide (s.threads.entries.map Prod.fst = [1]) &&
      (s.threads.get? 1).any (fun th =>
        match th with
        | .buffer _ _ kind _ _ => demo.enqueues kind
        | _ => false)) = true := by decide +kernel
  obtain ⟨s, hs, h⟩ := (Option.any_eq_true _ _).mp h
  simp only [Bool.and_eq_true, decide_eq_true_eq] at h
  obtain ⟨⟨⟨h1, h2⟩, h3⟩, h4⟩ := h
  have hab : Abandoned demo s 1 := by
    refine ⟨h1, h2, fun tid' th hg => ?_, ?_⟩
    · have := List.mem_map_of_mem (f := Prod.fst) ((AMap.mem_entries_iff _ _ _).mpr hg)
      rw [h3] at this
      simpa using this
    · obtain ⟨th, a, b⟩ := (Option.any_eq_true _ _).mp h4
      cases th with
      | limiter => cases b
      | reset => cases b
      | buffer op awake kind key next => exact ⟨op, awake, kind, key, next, a, b⟩
  refine ⟨_, s, at?_eq hs, by simp, by simp, h1, fun es' he s' hs' => ?_⟩
  have : Abandoned demo s' 1 := by
    clear hs h1 h2 h3 h4
    induction es' generalizing s with
    | nil => cases hs'; exact hab
    | cons e es ih =>
      rw [run] at hs'
      split at hs'
      · rename_i s1 hs1
        exact ih s1 (hab.step (he e (List.mem_cons_self ..)) hs1) (fun e' h' => he e' (List.mem_cons_of_mem _ h')) hs'
      · rename_i o hn
        exact absurd hs' (hn s')
  obtain ⟨op, awake, kind, key, next, hg, _⟩ := this.waits
  exact ⟨_, hg, rfl⟩

end Ext
end Verif
