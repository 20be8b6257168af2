import Verif.Spec.Extensions
import Verif.Proofs.ExtProg
import Verif.Proofs.Waiters
/-
The invariant behind C60 and C54 for asynchronous extensions.
-/
namespace Verif

namespace Table

theorem run_append (t : Table) (as bs : List Op) : t.run (as ++ bs) = (t.run as).bind fun t' => t'.run bs := by
  induction as generalizing t with
  | nil => rfl
  | cons a as ih =>
    rw [List.cons_append, run, run]
    split
    · rfl
    · exact ih _

theorem replies_append {t t' : Table} {as : List Op} (h : t.run as = some t') (bs : List Op) :
    t.replies (as ++ bs) = t.replies as ++ t'.replies bs := by
  induction as generalizing t with
  | nil => simp [run] at h; subst h; rfl
  | cons a as ih =>
    rw [run] at h
    rw [List.cons_append, replies, replies]
    split at h
    · cases h
    · rename_i hr
      have := ih h
      cases hx : (t.step a).2 with
      | died => exact absurd hx hr
      | ok x => simp [this]
      | err x => simp [this]

theorem run_single {t : Table} {op : Op} (h : (t.step op).2 ≠ .died) : t.run [op] = some (t.step op).1 := by
  rw [run]
  split
  · rename_i he; exact absurd he h
  · rfl

theorem replies_single {t : Table} {op : Op} : t.replies [op] = [(t.step op).2] := by
  rw [replies]
  cases (t.step op).2 <;> simp [replies]

end Table

theorem AMap.get?_mapVals {κ α β : Type} [DecidableEq κ] (f : α → β) (m : AMap κ α) (k : κ) :
    (m.mapVals f).get? k = (m.get? k).map f := by
  obtain ⟨l, hn⟩ := m
  simp only [AMap.get?, AMap.mapVals]
  clear hn
  induction l with
  | nil => rfl
  | cons e es ih =>
    obtain ⟨a, b⟩ := e
    simp only [List.map_cons, List.lookup_cons, ih]
    split <;> simp

namespace Ext

open Table (Op Reply)

/-- All that asynchronous extensions have been told or will be told. -/
def State.queue (s : State) : List ExtEvent := s.seen ++ s.taken ++ s.reqs

theorem passes_event (c : Cfg) (kind : ExtKind) (it : Item) : c.passes (kind.event it) = c.enqueues kind := by
  cases kind <;> rfl

/-- What the extension worker keeps. -/
structure Worker (c : Cfg) (s : State) : Prop where
  taken : s.phase ≠ .busy → s.taken = []
  asleep : s.phase = .asleep → s.reqs = []
  off : c.worker = false → s.reqs = [] ∧ s.phase = .starting

theorem Worker.push {c : Cfg} {s : State} (h : Worker c s) (e : ExtEvent) (hw : c.worker = true) : Worker c (s.push e) := by
  refine ⟨?_, ?_, fun h => by simp [hw] at h⟩
  · intro hp
    apply h.taken
    intro hb
    apply hp
    simp [State.push, hb]
  · intro hp
    simp only [State.push] at hp
    split at hp
    · cases hp
    · rename_i hn
      exact absurd ⟨h.asleep hp, hp⟩ hn

/-- The thread is out of the way, nothing else than the table, the requests and the signal to the extension worker has changed. -/
structure Frame (s s1 : State) : Prop where
  taken : s1.taken = s.taken
  seen : s1.seen = s.seen
  stop : s1.stop = s.stop
  threads : s1.threads = s.threads
  trace : s1.trace = s.trace
  phase : s1.phase = s.phase ∨ s.phase = .asleep ∧ s1.phase = .woken

theorem Frame.refl (s : State) : Frame s s := ⟨rfl, rfl, rfl, rfl, rfl, .inl rfl⟩

theorem Frame.push {s s1 : State} (h : Frame s s1) (e : ExtEvent) : Frame s (s1.push e) := by
  refine ⟨h.taken, h.seen, h.stop, h.threads, h.trace, ?_⟩
  simp only [State.push]
  split
  · rename_i hc
    rcases h.phase with hp | ⟨hp, hq⟩
    · exact .inr ⟨hp ▸ hc.2, rfl⟩
    · exact .inr ⟨hp, rfl⟩
  · exact h.phase

theorem Frame.table {s s1 : State} (h : Frame s s1) (t : Table) : Frame s { s1 with t := t } :=
  ⟨h.taken, h.seen, h.stop, h.threads, h.trace, h.phase⟩

/-- What `go` does: it dies, ends or waits as the program says. -/
inductive Went (c : Cfg) (tid : Nat) (op : Op) (p : Prog Reply) (s : State) : Option State → Prop
  | died : p.exec.2.1 = .died → Went c tid op p s none
  | done {s1 : State} : Frame s s1 → Worker c s1 → s1.queue = s.queue ++ p.exec.2.2.filter c.passes → p.exec.2.1 ≠ .died →
      Went c tid op p s (some (s1.finish tid op p.exec.1 p.exec.2.1))
  | wait {s1 : State} {kind : ExtKind} {key : Key} {next : Table → Prog Reply} {evs : List ExtEvent} : Frame s s1 → Worker c s1 →
      c.enqueues kind = true → c.maxOps ≤ s1.reqs.length →
      s1.queue = s.queue ++ evs.filter c.passes →
      p.exec = ((Prog.ext s1.t kind key next).exec.1, (Prog.ext s1.t kind key next).exec.2.1, evs ++ (Prog.ext s1.t kind key next).exec.2.2) →
      Went c tid op p s (some { s1 with threads := s1.threads.insert tid (.buffer op false kind key next) })

theorem Went.mono {c : Cfg} {tid : Nat} {op : Op} {p q : Prog Reply} {s s' : State} {o : Option State} {evs : List ExtEvent}
    (h : Went c tid op q s' o) (hf : Frame s s') (hq : s'.queue = s.queue ++ evs.filter c.passes)
    (he : p.exec = (q.exec.1, q.exec.2.1, evs ++ q.exec.2.2)) : Went c tid op p s o := by
  have tr : ∀ {s1}, Frame s' s1 → Frame s s1 := by
    intro s1 h1
    refine ⟨h1.taken.trans hf.taken, h1.seen.trans hf.seen, h1.stop.trans hf.stop, h1.threads.trans hf.threads, h1.trace.trans hf.trace, ?_⟩
    rcases h1.phase with a | ⟨a, b⟩ <;> rcases hf.phase with x | ⟨x, y⟩
    · exact .inl (a.trans x)
    · exact .inr ⟨x, a.trans y⟩
    · exact .inr ⟨x ▸ a, b⟩
    · exact .inr ⟨x, b⟩
  cases h with
  | died h => exact .died (by rw [he]; exact h)
  | done h1 hw h2 h3 =>
    have := Went.done (c := c) (tid := tid) (op := op) (p := p) (tr h1) hw (by rw [h2, hq, he]; simp [List.filter_append])
      (by rw [he]; exact h3)
    rw [he] at this
    exact this
  | wait h1 hw hk hm h2 h3 =>
    refine .wait (evs := evs ++ _) (tr h1) hw hk hm (by rw [h2, hq, List.filter_append, List.append_assoc]) ?_
    rw [he, h3]
    simp

theorem go_went (c : Cfg) (tid : Nat) (op : Op) (p : Prog Reply) (s : State) (hw : Worker c s) :
    Went c tid op p s (go c tid op p s) := by
  induction p generalizing s with
  | ret t r =>
    cases r with
    | died => exact Went.died (p := .ret t .died) rfl
    | ok a => exact Went.done (p := .ret t (.ok a)) (Frame.refl s) hw (by simp [Prog.exec]) (by simp [Prog.exec])
    | err e => exact Went.done (p := .ret t (.err e)) (Frame.refl s) hw (by simp [Prog.exec]) (by simp [Prog.exec])
  | ext t kind key next ih =>
    rw [go]
    split
    · rename_i hk
      have hwk : c.worker = true := by simp [Cfg.enqueues] at hk; exact hk.1
      split
      · rename_i hm
        refine Went.wait (s1 := { s with t := t }) (evs := []) ((Frame.refl s).table t) ⟨hw.taken, hw.asleep, hw.off⟩ hk hm ?_ ?_
        · simp [State.queue]
        · simp
      · cases hg : t.data.get? key with
        | none =>
          refine .died ?_
          rw [Prog.exec, hg]
        | some it =>
          dsimp only
          refine (ih t _ ?_).mono (evs := [kind.event it]) (((Frame.refl s).table t).push _) ?_ ?_
          · exact Worker.push (s := { s with t := t }) ⟨hw.taken, hw.asleep, hw.off⟩ _ hwk
          · simp [State.queue, State.push, passes_event, hk]
          · rw [Prog.exec, hg]; rfl
    · rename_i hk
      cases hg : t.data.get? key with
      | none =>
        refine .died ?_
        rw [Prog.exec, hg]
      | some it =>
        refine (ih t _ ?_).mono (evs := [kind.event it]) ((Frame.refl s).table t) ?_ ?_
        · exact ⟨hw.taken, hw.asleep, hw.off⟩
        · simp [State.queue, passes_event, hk]
        · rw [Prog.exec, hg]; rfl

/-- The calls that have returned. -/
def State.ops (s : State) : List Op := (returned s.trace).map Prod.fst

/-- Where the table is between the calls that have returned. -/
inductive Between (c : Cfg) (t0 tb : Table) (s : State) : Prop
  | quiet : s.Quiet → s.t = tb → t0.log.filter c.passes ++ s.queue = tb.log.filter c.passes → Between c t0 tb s
  | inside (tid : Nat) (op : Op) (awake : Bool) (kind : ExtKind) (key : Key) (next : Table → Prog Reply) (evs : List ExtEvent) :
      s.threads.get? tid = some (.buffer op awake kind key next) →
      (∀ tid' th, s.threads.get? tid' = some th → th.inBuffer = true → tid' = tid) → op ≠ .reset →
      (tb.prog op).exec = ((Prog.ext s.t kind key next).exec.1, (Prog.ext s.t kind key next).exec.2.1,
        evs ++ (Prog.ext s.t kind key next).exec.2.2) →
      t0.log.filter c.passes ++ s.queue = (tb.log ++ evs).filter c.passes → c.enqueues kind = true →
      (awake = false → c.maxOps ≤ s.reqs.length) → Between c t0 tb s

structure Inv (c : Cfg) (t0 : Table) (s : State) : Prop where
  worker : Worker c s
  main : ∃ tb, t0.run s.ops = some tb ∧ t0.replies s.ops = (returned s.trace).map Prod.snd ∧ Between c t0 tb s
  reads : ∀ pre t post, s.trace = pre ++ .read t :: post → t0.run ((returned pre).map Prod.fst) = some t

theorem init_inv (c : Cfg) (t : Table) : Inv c t (init t) :=
  ⟨⟨fun _ => rfl, fun _ => rfl, fun _ => ⟨rfl, rfl⟩⟩,
    ⟨t, rfl, rfl, .quiet (fun tid th h => by simp [init] at h) rfl (by simp [State.queue, init])⟩,
    fun pre t post h => by simp [init] at h⟩

theorem returned_append (a b : List Entry) : returned (a ++ b) = returned a ++ returned b := by simp [returned]

/-- A record that is not a return changes nothing of what the invariant says about it. -/
theorem reads_append {t0 : Table} {tr : List Entry} {e : Entry}
    (h : ∀ pre t post, tr = pre ++ .read t :: post → t0.run ((returned pre).map Prod.fst) = some t)
    (he : ∀ t, e = .read t → t0.run ((returned tr).map Prod.fst) = some t) (pre : List Entry) (t : Table) (post : List Entry)
    (hs : tr ++ [e] = pre ++ .read t :: post) : t0.run ((returned pre).map Prod.fst) = some t := by
  rcases List.eq_nil_or_concat post with rfl | ⟨post', x, rfl⟩
  · obtain ⟨h1, h2⟩ := List.append_inj' hs rfl
    rw [← h1]
    exact he t (List.singleton_inj.mp h2)
  · have : tr ++ [e] = (pre ++ .read t :: post') ++ [x] := by rw [hs]; simp
    obtain ⟨h1, _⟩ := List.append_inj' this rfl
    exact h pre t post' h1

theorem finish_queue (s : State) (tid : Nat) (op : Op) (t : Table) (r : Res Reply) : (s.finish tid op t r).queue = s.queue := by
  unfold State.finish
  split <;> rfl

theorem finish_worker {c : Cfg} {s : State} (h : Worker c s) (tid : Nat) (op : Op) (t : Table) (r : Res Reply) :
    Worker c (s.finish tid op t r) := by
  unfold State.finish
  split <;> exact ⟨h.taken, h.asleep, h.off⟩

theorem finish_quiet {s : State} {tid : Nat} (h : ∀ tid' th, s.threads.get? tid' = some th → th.inBuffer = true → tid' = tid) (op : Op)
    (t : Table) (r : Res Reply) : (s.finish tid op t r).Quiet := by
  intro tid' th hg
  unfold State.finish at hg
  split at hg
  · simp only [AMap.get?_insert] at hg
    split at hg
    · cases hg; rfl
    · rename_i hne
      cases hb : th.inBuffer with
      | false => rfl
      | true => exact absurd (h tid' th hg hb) hne
  · simp only [AMap.get?_erase] at hg
    split at hg
    · cases hg
    · rename_i hne
      cases hb : th.inBuffer with
      | false => rfl
      | true => exact absurd (h tid' th hg hb) hne

theorem finish_t (s : State) (tid : Nat) (op : Op) (t : Table) (r : Res Reply) : (s.finish tid op t r).t = t := by
  unfold State.finish
  split <;> rfl

/-- A call comes to its end. -/
theorem Inv.finish {c : Cfg} {t0 tb : Table} {s : State} {tid : Nat} {op : Op} (hw : Worker c s)
    (h1 : t0.run s.ops = some tb) (h2 : t0.replies s.ops = (returned s.trace).map Prod.snd)
    (hr : ∀ pre t post, s.trace = pre ++ .read t :: post → t0.run ((returned pre).map Prod.fst) = some t)
    (ho : ∀ tid' th, s.threads.get? tid' = some th → th.inBuffer = true → tid' = tid)
    (hd : (tb.step op).2 ≠ .died) (hq : t0.log.filter c.passes ++ s.queue = (tb.step op).1.log.filter c.passes) :
    Inv c t0 (s.finish tid op (tb.step op).1 (tb.step op).2) := by
  refine ⟨finish_worker hw .., ?_, ?_⟩
  · by_cases hb : (tb.step op).2 = .ok .blocked ∧ op.waiting ≠ none
    · obtain ⟨hb, hwt⟩ := hb
      have hby : op.byWorker = false := by cases op <;> simp_all [Op.waiting, Op.byWorker]
      have ht := (Table.blocked_iff hby hb).1
      obtain ⟨op', ho'⟩ := Option.ne_none_iff_exists'.mp hwt
      refine ⟨tb, ?_, ?_, .quiet (finish_quiet ho _ _ _) ?_ ?_⟩
      · simpa [State.ops, State.finish, hb, ho'] using h1
      · simpa [State.ops, State.finish, hb, ho'] using h2
      · rw [finish_t, ht]
      · rw [finish_queue, hq, ht]
    · have he : (if (tb.step op).2 = .ok .blocked then op.waiting else none) = none := by
        split
        · rename_i h; exact Classical.byContradiction fun hn => hb ⟨h, hn⟩
        · rfl
      have hf : (s.finish tid op (tb.step op).1 (tb.step op).2).trace = s.trace ++ [.ret tid op (tb.step op).2] := by
        unfold State.finish; rw [he]
      have hops : (s.finish tid op (tb.step op).1 (tb.step op).2).ops = s.ops ++ [op] := by
        unfold State.ops; rw [hf, returned_append]; simp [returned]
      refine ⟨(tb.step op).1, ?_, ?_, .quiet (finish_quiet ho _ _ _) (finish_t ..) ?_⟩
      · rw [hops, Table.run_append, h1]
        exact Table.run_single hd
      · rw [hops, Table.replies_append h1, Table.replies_single, h2, hf, returned_append]
        simp [returned]
      · rw [finish_queue, hq]
  · intro pre t post hs
    unfold State.finish at hs
    split at hs
    · exact hr pre t post hs
    · exact reads_append hr (by simp) pre t post hs

/-- A caller runs. -/
theorem Inv.go {c : Cfg} {t0 tb : Table} {s : State} {tid : Nat} {op : Op} {p : Prog Reply} {evs : List ExtEvent} (hw : Worker c s)
    (h1 : t0.run s.ops = some tb) (h2 : t0.replies s.ops = (returned s.trace).map Prod.snd)
    (hr : ∀ pre t post, s.trace = pre ++ .read t :: post → t0.run ((returned pre).map Prod.fst) = some t)
    (ho : ∀ tid' th, s.threads.get? tid' = some th → th.inBuffer = true → tid' = tid) (hop : op ≠ .reset)
    (hp : (tb.prog op).exec = (p.exec.1, p.exec.2.1, evs ++ p.exec.2.2))
    (hq : t0.log.filter c.passes ++ s.queue = (tb.log ++ evs).filter c.passes) :
    (Ext.go c tid op p s = none → (tb.step op).2 = .died) ∧ ∀ s', Ext.go c tid op p s = some s' → Inv c t0 s' := by
  obtain ⟨evs', he, hl⟩ := Table.prog_runs tb op hop
  rw [he] at hp
  obtain ⟨e1, e2⟩ := Prod.mk.inj hp
  obtain ⟨e2, e3⟩ := Prod.mk.inj e2
  have hg := go_went c tid op p s hw
  generalize Ext.go c tid op p s = o at hg
  cases hg with
  | died h => exact ⟨fun _ => e2.trans h, fun s' h => by cases h⟩
  | done hf hw1 hq1 hd =>
    refine ⟨fun h => (by cases h), fun s' h => ?_⟩
    cases h
    rw [← e1, ← e2]
    refine Inv.finish hw1 (by simpa only [State.ops, hf.trace] using h1) (by simpa only [State.ops, hf.trace] using h2)
      (by simpa only [hf.trace] using hr) (by simpa only [hf.threads] using ho) (by rw [e2]; exact hd) ?_
    rw [hq1, ← List.append_assoc, hq, hl, e3, List.filter_append, List.filter_append, List.filter_append, List.append_assoc]
  | @wait s1 kind key next evs1 hf hw1 hk hm hq1 hp1 =>
    refine ⟨fun h => (by cases h), fun s' h => ?_⟩
    cases h
    refine ⟨⟨hw1.taken, hw1.asleep, hw1.off⟩, ⟨tb, by simpa only [State.ops, hf.trace] using h1, by simpa only [State.ops, hf.trace] using h2,
      .inside tid op false kind key next (evs ++ evs1) (AMap.get?_insert_self _ _ _) ?_ hop ?_ ?_ hk (fun _ => hm)⟩, by simpa only [hf.trace] using hr⟩
    · intro tid' th hg hb
      simp only [AMap.get?_insert] at hg
      split at hg
      · assumption
      · exact ho tid' th (by rw [← hf.threads]; exact hg) hb
    · rw [he, hp, hp1]
      simp
    · show t0.log.filter c.passes ++ s1.queue = _
      rw [hq1, ← List.append_assoc, hq]
      simp [List.filter_append]

theorem queue_of {s s' : State} (h1 : s'.seen = s.seen) (h2 : s'.taken = s.taken) (h3 : s'.reqs = s.reqs) : s'.queue = s.queue := by
  simp [State.queue, h1, h2, h3]

/-- Steps that leave the table, the trace and the callers in the buffer alone. -/
theorem Between.of {c : Cfg} {t0 tb : Table} {s s' : State} (h : Between c t0 tb s) (ht : s'.t = s.t) (hq : s'.queue = s.queue)
    (hb : ∀ tid th, s'.threads.get? tid = some th → th.inBuffer = true → ∃ th', s.threads.get? tid = some th' ∧ th'.inBuffer = true)
    (hk : ∀ tid op awake kind key next, s.threads.get? tid = some (.buffer op awake kind key next) → (awake = false → c.maxOps ≤ s.reqs.length) →
      (∀ tid' th, s.threads.get? tid' = some th → th.inBuffer = true → tid' = tid) →
      ∃ awake', s'.threads.get? tid = some (.buffer op awake' kind key next) ∧ (awake' = false → c.maxOps ≤ s'.reqs.length)) :
    Between c t0 tb s' := by
  cases h with
  | quiet h1 h2 h3 =>
    refine .quiet (fun tid th hg => ?_) (ht.trans h2) (by rw [hq]; exact h3)
    cases hb' : th.inBuffer with
    | false => rfl
    | true =>
      obtain ⟨th', h4, h5⟩ := hb tid th hg hb'
      rw [h1 tid th' h4] at h5
      cases h5
  | inside tid op awake kind key next evs h1 h2 h3 h4 h5 h6 h7 =>
    obtain ⟨awake', h8, h9⟩ := hk tid op awake kind key next h1 h7 h2
    refine .inside tid op awake' kind key next evs h8 ?_ h3 (by rw [ht]; exact h4) (by rw [hq]; exact h5) h6 h9
    intro tid' th hg hi
    obtain ⟨th', a, b⟩ := hb tid' th hg hi
    exact h2 tid' th' a b

theorem Between.same {c : Cfg} {t0 tb : Table} {s s' : State} (h : Between c t0 tb s) (ht : s'.t = s.t) (hq : s'.queue = s.queue)
    (hth : s'.threads = s.threads) (hr : s'.reqs = s.reqs) : Between c t0 tb s' :=
  h.of ht hq (fun tid th hg hb => ⟨th, by rw [← hth]; exact hg, hb⟩)
    (fun tid op awake kind key next hg ha _ => ⟨awake, by rw [hth]; exact hg, by rw [hr]; exact ha⟩)

/-- In quiet states the table is the one that the calls that have returned leave behind. -/
theorem Inv.quiet {c : Cfg} {t0 : Table} {s : State} (h : Inv c t0 s) (hq : s.Quiet) :
    t0.run s.ops = some s.t ∧ t0.replies s.ops = (returned s.trace).map Prod.snd ∧
      t0.log.filter c.passes ++ s.queue = s.t.log.filter c.passes := by
  obtain ⟨tb, h1, h2, h3⟩ := h.main
  cases h3 with
  | quiet _ ht hl => subst ht; exact ⟨h1, h2, hl⟩
  | inside tid op awake kind key next evs hg =>
    have := hq tid _ hg
    simp [Thread.inBuffer] at this

theorem Quiet.only {s : State} (h : s.Quiet) (tid : Nat) (tid' : Nat) (th : Thread) (hg : s.threads.get? tid' = some th)
    (hb : th.inBuffer = true) : tid' = tid := by
  rw [h tid' th hg] at hb
  cases hb

/-- An attempt at a quiet moment. -/
theorem Inv.start {c : Cfg} {t0 : Table} {s : State} (h : Inv c t0 s) (hq : s.Quiet) (tid : Nat) (op : Op) (hop : op ≠ .reset) {s1 : State}
    (hs1 : s1 = s ∨ ∃ e, (∀ t, e ≠ .read t) ∧ returned [e] = [] ∧ s1 = { s with trace := s.trace ++ [e] }) :
    (Ext.go c tid op (s.t.prog op) s1 = none → (s.t.step op).2 = .died) ∧ ∀ s', Ext.go c tid op (s.t.prog op) s1 = some s' → Inv c t0 s' := by
  obtain ⟨h1, h2, h3⟩ := h.quiet hq
  rcases hs1 with rfl | ⟨e, he, hr, rfl⟩
  · exact Inv.go h.worker h1 h2 h.reads (Quiet.only hq tid) hop (p := _) (evs := []) rfl (by simpa using h3)
  · have ho : returned (s.trace ++ [e]) = returned s.trace := by rw [returned_append, hr, List.append_nil]
    exact Inv.go (s := { s with trace := s.trace ++ [e] }) ⟨h.worker.taken, h.worker.asleep, h.worker.off⟩
      (by simpa only [State.ops, ho] using h1) (by simpa only [State.ops, ho] using h2) (reads_append h.reads (fun t h => absurd h (he t)))
      (Quiet.only hq tid) hop (p := _) (evs := []) rfl (by simpa [State.queue] using h3)

/-- `Reset` with the extension worker asleep. -/
theorem Inv.reset {c : Cfg} {t0 : Table} {s : State} (h : Inv c t0 s) (hq : s.Quiet) (hd : s.drained c = true) (tid : Nat) {s1 : State}
    (hs1 : s1 = s ∨ ∃ e, (∀ t, e ≠ .read t) ∧ returned [e] = [] ∧ s1 = { s with trace := s.trace ++ [e] }) :
    ∃ s', s1.reset c tid = some s' ∧ Inv c t0 s' := by
  obtain ⟨h1, h2, h3⟩ := h.quiet hq
  have hr : s.reqs = [] ∧ s.taken = [] := by
    cases hw : c.worker with
    | false =>
      obtain ⟨a, b⟩ := h.worker.off hw
      exact ⟨a, h.worker.taken (by rw [b]; decide)⟩
    | true =>
      simp only [State.drained, hw, Bool.not_true, Bool.false_or, Bool.and_eq_true, decide_eq_true_eq, List.isEmpty_iff] at hd
      refine ⟨hd.2, h.worker.taken ?_⟩
      rcases hd.1 with a | a | a <;> rw [a] <;> decide
  have hqu : t0.log.filter c.passes ++ (s.seen ++ [ExtEvent.reset] ++ s.taken ++ s.reqs) = (s.t.step .reset).1.log.filter c.passes := by
    have : (s.t.step .reset).1.log = s.t.log ++ [.reset] := rfl
    rw [this, List.filter_append, ← h3]
    simp [State.queue, hr.1, hr.2, Cfg.passes, List.filter_cons]
  have key : ∀ s2 : State, s2.t = s.t → s2.threads = s.threads → Worker c s2 → t0.run s2.ops = some s.t →
      t0.replies s2.ops = (returned s2.trace).map Prod.snd →
      (∀ pre t post, s2.trace = pre ++ .read t :: post → t0.run ((returned pre).map Prod.fst) = some t) →
      t0.log.filter c.passes ++ s2.queue = (s.t.step .reset).1.log.filter c.passes →
      Inv c t0 (s2.finish tid .reset (s.t.step .reset).1 (s.t.step .reset).2) := fun s2 e1 e2 a b d e f =>
    Inv.finish a b d e (by rw [e2]; exact Quiet.only hq tid) (by show Res.ok Reply.done ≠ _; simp) f
  rcases hs1 with rfl | ⟨e, he, hre, rfl⟩
  · exact ⟨_, rfl, key { s1 with seen := s1.seen ++ [ExtEvent.reset] } rfl rfl ⟨h.worker.taken, h.worker.asleep, h.worker.off⟩ h1 h2 h.reads hqu⟩
  · have ho : returned (s.trace ++ [e]) = returned s.trace := by rw [returned_append, hre, List.append_nil]
    exact ⟨_, rfl, key { s with seen := s.seen ++ [ExtEvent.reset], trace := s.trace ++ [e] } rfl rfl
      ⟨h.worker.taken, h.worker.asleep, h.worker.off⟩ (by simpa only [State.ops, ho] using h1) (by simpa only [State.ops, ho] using h2)
      (reads_append h.reads (fun t h => absurd h (he t))) hqu⟩

theorem signal_spec {s s' : State} {who : Nat} (h : s.signal who = some s') : ∃ op awake kind key next,
    s.threads.get? who = some (.buffer op awake kind key next) ∧
      s' = { s with threads := s.threads.insert who (.buffer op true kind key next) } := by
  unfold State.signal at h
  split at h
  · rename_i op awake kind key next hg
    exact ⟨op, awake, kind, key, next, hg, (Option.some.inj h).symm⟩
  · cases h

theorem Between.signal {c : Cfg} {t0 tb : Table} {s s1 s' : State} {who : Nat} (h : Between c t0 tb s) (ht : s1.t = s.t) (hq : s1.queue = s.queue)
    (hth : s1.threads = s.threads) (hs : s1.signal who = some s') : Between c t0 tb s' := by
  obtain ⟨op, awake, kind, key, next, hg, rfl⟩ := signal_spec hs
  rw [hth] at hg
  refine h.of ht hq ?_ ?_
  · intro tid th h1 h2
    simp only [AMap.get?_insert] at h1
    split at h1
    · rename_i he
      exact ⟨_, by rw [he]; exact hg, rfl⟩
    · exact ⟨th, by rw [← hth]; exact h1, h2⟩
  · intro tid op' awake' kind' key' next' h1 h2 h3
    have := h3 who _ hg rfl
    subst this
    rw [hg] at h1
    cases h1
    exact ⟨true, AMap.get?_insert_self _ _ _, fun h => (by cases h)⟩

theorem Between.take {c : Cfg} {t0 tb : Table} {s s' : State} {who : Option Nat} (h : Between c t0 tb s) (ht : s.taken = [])
    (hs : s.take c who = some s') : Between c t0 tb s' := by
  unfold State.take at hs
  have hqu : State.queue { s with taken := s.reqs, reqs := [], phase := .busy } = s.queue := by simp [State.queue, ht]
  dsimp only at hs
  split at hs
  · split at hs
    · exact h.signal (s1 := { s with taken := s.reqs, reqs := [], phase := .busy }) rfl hqu rfl hs
    · split at hs
      · cases hs
      · rename_i hn
        cases hs
        refine h.of rfl hqu (fun tid th a b => ⟨th, a, b⟩) (fun tid op awake kind key next hg ha _ => ⟨awake, hg, fun he => ?_⟩)
        subst he
        refine absurd ?_ hn
        rw [List.any_eq_true]
        exact ⟨(tid, _), (AMap.mem_entries_iff _ _ _).mpr hg, rfl⟩
  · rename_i hlt
    split at hs
    · cases hs
    · cases hs
      exact h.of rfl hqu (fun tid th a b => ⟨th, a, b⟩) (fun tid op awake kind key next hg ha _ => ⟨awake, hg, fun he => absurd (ha he) hlt⟩)

theorem take_worker {c : Cfg} {s s' : State} {who : Option Nat} (h : Worker c s) (hp : s.phase ≠ .starting) (hs : s.take c who = some s') :
    Worker c s' := by
  have key : ∀ s1 : State, s1.phase = .busy → Worker c s1 := fun s1 h1 =>
    ⟨fun h => absurd h1 h, fun h => (by rw [h1] at h; cases h), fun hw => absurd (h.off hw).2 hp⟩
  unfold State.take at hs
  dsimp only at hs
  split at hs
  · split at hs
    · obtain ⟨_, _, _, _, _, _, rfl⟩ := signal_spec hs
      exact key _ rfl
    · split at hs
      · cases hs
      · cases hs; exact key _ rfl
  · split at hs
    · cases hs
    · cases hs; exact key _ rfl

theorem take_trace {c : Cfg} {s s' : State} {who : Option Nat} (hs : s.take c who = some s') : s'.trace = s.trace := by
  unfold State.take at hs
  dsimp only at hs
  split at hs
  · split at hs
    · obtain ⟨_, _, _, _, _, _, rfl⟩ := signal_spec hs
      rfl
    · split at hs
      · cases hs
      · cases hs; rfl
  · split at hs
    · cases hs
    · cases hs; rfl

/-- Steps that return nothing. -/
theorem Inv.of {c : Cfg} {t0 : Table} {s s' : State} (h : Inv c t0 s) (hw : Worker c s') (ht : s'.trace = s.trace)
    (hb : ∀ tb, Between c t0 tb s → Between c t0 tb s') : Inv c t0 s' := by
  obtain ⟨tb, h1, h2, h3⟩ := h.main
  exact ⟨hw, ⟨tb, by simpa only [State.ops, ht] using h1, by simpa only [State.ops, ht] using h2, hb tb h3⟩, by simpa only [ht] using h.reads⟩

/-- The event is an attempt of the call. -/
def Tries (s : State) (e : Event) (op : Op) : Prop :=
  e.op? = some op ∨ ∃ tid awake kind key next, s.threads.get? tid = some (.buffer op awake kind key next)

/-- What is to be shown of one event. -/
def Good (c : Cfg) (t0 : Table) (s : State) (e : Event) : Outcome → Prop
  | .impossible => True
  | .died => ∃ tb op, t0.run s.ops = some tb ∧ (tb.step op).2 = .died ∧ Tries s e op
  | .next s' => Inv c t0 s'

theorem Good.of {c : Cfg} {t0 tb : Table} {s : State} {e : Event} {op : Op} {o : Option State} (h : t0.run s.ops = some tb)
    (hg : (o = none → (tb.step op).2 = .died) ∧ ∀ s', o = some s' → Inv c t0 s') (ht : Tries s e op) : Good c t0 s e (.of o) := by
  cases o with
  | none => exact ⟨tb, op, h, hg.1 rfl, ht⟩
  | some s' => exact hg.2 s' rfl

theorem Good.guard {c : Cfg} {t0 : Table} {s : State} {e : Event} {o : Option State} (hg : ∀ s', o = some s' → Inv c t0 s') :
    Good c t0 s e (.guard o) := by
  cases o with
  | none => trivial
  | some s' => exact hg s' rfl

theorem step_good {c : Cfg} {t0 : Table} {s : State} (h : Inv c t0 s) (e : Event) (ha : e.enters = true → s.Quiet) :
    Good c t0 s e (step c s e) := by
  cases e with
  | call tid op =>
    have hq := ha rfl
    have hrun := (h.quiet hq).1
    rw [step]
    split
    · trivial
    · dsimp only
      have hs1 : ∀ op, ∃ e, (∀ t, e ≠ Entry.read t) ∧ returned [e] = [] ∧
          { s with trace := s.trace ++ [.call tid op] } = { s with trace := s.trace ++ [e] } := fun op => ⟨.call tid op, by simp, rfl, rfl⟩
      split
      · trivial
      · trivial
      · split
        · rename_i hd
          obtain ⟨s', h1, h2⟩ := h.reset hq hd tid (.inr (hs1 _))
          rw [h1]
          exact h2
        · refine ⟨⟨h.worker.taken, h.worker.asleep, h.worker.off⟩, ⟨s.t, ?_, ?_, .quiet ?_ rfl ?_⟩, ?_⟩
          · simpa [State.ops, returned_append, returned] using hrun
          · simpa [State.ops, returned_append, returned] using (h.quiet hq).2.1
          · intro tid' th hg
            simp only [AMap.get?_insert] at hg
            split at hg
            · cases hg; rfl
            · exact hq tid' th hg
          · exact (h.quiet hq).2.2
          · exact reads_append h.reads (by simp)
      · rename_i hn
        exact Good.of hrun (h.start hq tid op hn (.inr (hs1 _))) (.inl rfl)
  | resume tid op =>
    have hq := ha rfl
    rw [step]
    split
    · split
      · rename_i op0 _ hag
        refine Good.of (h.quiet hq).1 (h.start hq tid op ?_ (.inl rfl)) (.inl rfl)
        rintro rfl
        cases op0 <;> exact hag
      · trivial
    · trivial
  | timeout tid =>
    rw [step]
    split
    · rename_i op0 hg
      obtain ⟨tb, h1, h2, h3⟩ := h.main
      refine ⟨⟨h.worker.taken, h.worker.asleep, h.worker.off⟩, ⟨tb, ?_, ?_, ?_⟩, reads_append h.reads (by simp)⟩
      · simpa [State.ops, returned_append, returned] using h1
      · simpa [State.ops, returned_append, returned] using h2
      · refine h3.of rfl rfl ?_ ?_
        · intro tid' th a b
          simp only [AMap.get?_erase] at a
          split at a
          · cases a
          · exact ⟨th, a, b⟩
        · intro tid' op awake kind key next a b _
          refine ⟨awake, ?_, b⟩
          simp only [AMap.get?_erase]
          split
          · rename_i he
            subst he
            rw [hg] at a
            cases a
          · exact a
    · trivial
  | drained tid =>
    have hq := ha rfl
    rw [step]
    split
    · split
      · rename_i hd
        obtain ⟨s', h1, h2⟩ := h.reset hq hd tid (.inl rfl)
        rw [h1]
        exact h2
      · trivial
    · trivial
  | push tid =>
    rw [step]
    split
    · rename_i op kind key next hg
      obtain ⟨tb, h1, h2, h3⟩ := h.main
      cases h3 with
      | quiet hq =>
        have := hq tid _ hg
        simp [Thread.inBuffer] at this
      | inside tid' op' awake' kind' key' next' evs a1 a2 a3 a4 a5 a6 a7 =>
        have := a2 tid _ hg rfl
        subst this
        rw [hg] at a1
        cases a1
        exact Good.of h1 (Inv.go h.worker h1 h2 h.reads a2 a3 a4 a5) (.inr ⟨_, _, _, _, _, hg⟩)
    · trivial
  | spurious tid =>
    refine Good.guard fun s' hs => ?_
    obtain ⟨op, awake, kind, key, next, hg, he⟩ := signal_spec hs
    refine h.of ?_ (by rw [he]) (fun tb hb => hb.signal rfl rfl rfl hs)
    subst he
    exact ⟨h.worker.taken, h.worker.asleep, h.worker.off⟩
  | read =>
    have hq := ha rfl
    obtain ⟨h1, h2, h3⟩ := h.quiet hq
    refine ⟨⟨h.worker.taken, h.worker.asleep, h.worker.off⟩, ⟨s.t, ?_, ?_, .quiet hq rfl h3⟩, reads_append h.reads ?_⟩
    · simpa [State.ops, returned_append, returned] using h1
    · simpa [State.ops, returned_append, returned] using h2
    · intro t ht
      cases ht
      exact h1
  | start =>
    rw [step]
    split
    · rename_i hc
      refine h.of ⟨fun _ => h.worker.taken (by rw [hc.2]; decide), fun h => (by cases h), fun hw => ?_⟩ rfl (fun tb hb => hb.same rfl rfl rfl rfl)
      rw [hc.1] at hw
      cases hw
    · trivial
  | check =>
    rw [step]
    split
    · rename_i hp
      refine h.of ⟨fun _ => h.worker.taken (by rw [hp]; decide), fun h => ?_, fun hw => ?_⟩ rfl (fun tb hb => hb.same rfl rfl rfl rfl)
      · dsimp only at h
        split at h <;> cases h
      · have := (h.worker.off hw).2
        rw [hp] at this
        cases this
    · trivial
  | lock who =>
    unfold step
    dsimp only
    split
    · rename_i hp
      split
      · rename_i hr
        split
        · trivial
        · refine h.of ⟨fun _ => h.worker.taken (by rw [hp]; decide), fun _ => hr, fun hw => ?_⟩ rfl (fun tb hb => hb.same rfl rfl rfl rfl)
          have := (h.worker.off hw).2
          rw [hp] at this
          cases this
      · exact Good.guard fun s' hs => h.of (take_worker h.worker (by rw [hp]; decide) hs) (take_trace hs)
          (fun tb hb => hb.take (h.worker.taken (by rw [hp]; decide)) hs)
    · split
      · rename_i hp
        exact Good.guard fun s' hs => h.of (take_worker h.worker (by rw [hp]; decide) hs) (take_trace hs)
          (fun tb hb => hb.take (h.worker.taken (by rw [hp]; decide)) hs)
      · trivial
  | handle =>
    rw [step]
    split
    · rename_i hp
      refine h.of ⟨fun _ => rfl, fun h => (by cases h), fun hw => ?_⟩ rfl (fun tb hb => hb.same rfl (by simp [State.queue]) rfl rfl)
      have := (h.worker.off hw).2
      rw [hp] at this
      cases this
    · trivial
  | stop => exact h.of ⟨h.worker.taken, h.worker.asleep, h.worker.off⟩ rfl (fun tb hb => hb.same rfl rfl rfl rfl)
  | signalAll =>
    refine h.of ⟨?_, ?_, ?_⟩ rfl (fun tb hb => hb.of rfl rfl ?_ ?_)
    · intro hp
      apply h.worker.taken
      intro hb
      exact hp (by simp [hb])
    · intro hp
      dsimp only at hp
      split at hp
      · cases hp
      · rename_i hn; exact absurd hp hn
    · intro hw
      obtain ⟨a, b⟩ := h.worker.off hw
      exact ⟨a, by simp [b]⟩
    · intro tid th a b
      rw [AMap.get?_mapVals] at a
      obtain ⟨th', e1, rfl⟩ := Option.map_eq_some_iff.mp a
      refine ⟨th', e1, ?_⟩
      cases th' <;> simp_all [Thread.wake, Thread.inBuffer]
    · intro tid op awake kind key next a b _
      exact ⟨true, by rw [AMap.get?_mapVals, a]; rfl, fun h => (by cases h)⟩

theorem step_apart {c : Cfg} {t0 : Table} {s : State} (h : Inv c t0 s) (e : Event)
    (ha : e.enters = true → step c s e ≠ .impossible → s.Quiet) : Good c t0 s e (step c s e) := by
  by_cases hi : step c s e = .impossible
  · rw [hi]; trivial
  · exact step_good h e fun he => ha he hi

theorem run_inv {c : Cfg} {t0 : Table} (es : List Event) {s s' : State} (h : Inv c t0 s) (ha : Apart c s es) (hs : run c s es = .next s') :
    Inv c t0 s' := by
  induction es generalizing s with
  | nil => cases hs; exact h
  | cons e es ih =>
    have hg := step_apart h e ha.1
    rw [run] at hs
    split at hs
    · rename_i s1 hs1
      rw [hs1] at hg
      exact ih hg (ha.2 s1 hs1) hs
    · rename_i o hn
      exact absurd hs (hn s')

end Ext
end Verif
