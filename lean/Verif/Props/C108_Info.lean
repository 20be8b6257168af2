import Verif.Proofs.Info
import Verif.Proofs.Checkpoint
import Verif.Props.C62_Waiters
import Verif.Props.C19_C21_C54_Accounting
import Verif.Props.C15_C16_C20_Samples
/-
C108: what `server_info` says about the tables of a server.
-/
namespace Verif
open Table (Op)
open Waiters (S Waiter Act Env Call)
open Info (Obs Asked Seen CallStats TableInfo Entry Server Event)

/-! ### The contents of a table -/

/-- C108: name, signature and settings are those given to the constructor; the sizes are those of the table at that moment. -/
theorem C108_fields {c : Config} {t : Table} (h : c.Reachable t) (name : String) (sig : Option Sig) (ins smp : Stats.S) (now : Int) :
    let i := Info.tableInfo name sig t ins smp now
    i.name = name ∧ i.signature = sig ∧ i.samplerOptions = c.sampler ∧ i.removerOptions = c.remover ∧ i.maxSize = c.maxSize ∧
    i.maxTimesSampled = c.maxTimesSampled ∧ i.limiter.samplesPerInsert = c.spi ∧ i.limiter.minSizeToSample = c.minSize ∧
    i.limiter.minDiff = c.minDiff ∧ i.limiter.maxDiff = c.maxDiff ∧
    ∃ items : List Item, items.Nodup ∧ (∀ it, it ∈ items ↔ t.get it.key = some it) ∧ i.currentSize = items.length ∧ i.currentSize ≤ i.maxSize ∧
      i.numEpisodes = (Spec.episodes items).length ∧ i.numDeletedEpisodes = Spec.endedEpisodes t.log := by
  have hk := h.keeps
  obtain ⟨l, hl⟩ := h.log
  obtain ⟨_, _, _, _, k⟩ := h.inv.core
  refine ⟨rfl, rfl, k.samp.options, k.rem.options, hk.maxSize, hk.maxTimes, hk.spi, hk.minSize, hk.minDiff, hk.maxDiff, l, ?_, ?_, ?_, h.inv.size, ?_, ?_⟩
  · have := hl.tracks.nodup
    rw [List.nodup_iff_pairwise_ne, List.pairwise_map] at this
    exact this.imp fun {a b} hne (e : a = b) => hne (by rw [e])
  · intro it
    constructor
    · intro hm; exact (hl.tracks.mem _ _).mpr ⟨hm, rfl⟩
    · intro hm; exact ((hl.tracks.mem _ _).mp hm).1
  · exact hl.tracks.length.symm
  · exact (hl.tracks.episodes k.refs).symm
  · have := hl.ended
    unfold Table.endedState at this
    unfold Spec.endedEpisodes
    rw [this]
    rfl

/-- C108: the number of different items sampled, for items that start with sample count 0. -/
theorem C108_unique {c : Config} {t : Table} (h : c.ReachableFresh t) (name : String) (sig : Option Sig) (ins smp : Stats.S) (now : Int) :
    (Info.tableInfo name sig t ins smp now).numUniqueSamples = Spec.uniqueSamples t.log := C20_unique_samples c t h

/-! ### The statistics of a table without table worker -/

/-- C108: the statistics are those of the questions asked so far, for any schedule of any number of callers. -/
theorem C108_stats {size : Nat} (hpos : 0 < size) {c : Config} {o : Obs} {ins smp : List Asked} (h : Seen size c.init o ins smp)
    (name : String) (sig : Option Sig) (now : Int) :
    let i := Info.tableInfo name sig o.base.table o.ins o.smp now
    i.limiter.insertStats = Info.reported ins now ∧ i.limiter.sampleStats = Info.reported smp now := by
  have hg := h.good hpos
  exact ⟨hg.insKept.reported hg.insTime now, hg.smpKept.reported hg.smpTime now⟩

theorem Info.Linked.count {p : Call → Bool} {s : S} {ev : AMap Nat Nat} {l : List Asked} (h : Info.Linked p (Info.Has s) ev l)
    (hn : (s.waiters.map Waiter.id).Nodup) : l.countP (·.stop.isNone) = s.waiters.countP fun w => p w.call := by
  have h1 : ((l.filter (·.stop.isNone)).map Asked.id).Nodup := by
    rw [List.nodup_iff_pairwise_ne, List.pairwise_map]
    have : l.Pairwise fun a b => a.stop = none → b.stop = none → a.id ≠ b.id := by
      rw [List.pairwise_iff_getElem]
      intro i j hi hj hij ha hb e
      have := h.uniq (List.getElem?_eq_getElem hj) hb (List.getElem?_eq_getElem hi) ha e
      omega
    rw [List.pairwise_filter]
    exact this.imp fun {a b} hab ha hb => hab (by simpa using ha) (by simpa using hb)
  have h2 : ((s.waiters.filter fun w => p w.call).map Waiter.id).Nodup := hn.sublist (List.Sublist.map _ List.filter_sublist)
  have hm : ∀ x, x ∈ (l.filter (·.stop.isNone)).map Asked.id ↔ x ∈ (s.waiters.filter fun w => p w.call).map Waiter.id := by
    intro x
    simp only [List.mem_map, List.mem_filter]
    constructor
    · rintro ⟨q, ⟨hq, ho⟩, rfl⟩
      obtain ⟨k, hk⟩ := List.mem_iff_getElem?.mp hq
      obtain ⟨_, c, ⟨w, hw, h3, h4⟩, h5, _⟩ := h.bwd k q hk (by simpa using ho)
      exact ⟨w, ⟨hw, by rw [h4]; exact h5⟩, h3⟩
    · rintro ⟨w, ⟨hw, hp⟩, rfl⟩
      obtain ⟨k, q, _, h3, h4, h5⟩ := h.fwd w.id w.call ⟨w, hw, rfl, rfl⟩ hp
      exact ⟨q, ⟨List.mem_of_getElem? h3, by simp [h5]⟩, h4⟩
  have := ((List.perm_ext_iff_of_nodup h1 h2).mpr hm).length_eq
  simpa [List.countP_eq_length_filter] using this

/-- C108: `pending` is the number of callers that wait. -/
theorem C108_pending {size : Nat} (hpos : 0 < size) {c : Config} {o : Obs} {ins smp : List Asked} (h : Seen size c.init o ins smp)
    (name : String) (sig : Option Sig) (now : Int) :
    let i := Info.tableInfo name sig o.base.table o.ins o.smp now
    i.limiter.insertStats.pending = o.base.waiters.countP Waiter.inserts ∧ i.limiter.sampleStats.pending = o.base.waiters.countP Waiter.samples := by
  have hg := h.good hpos
  obtain ⟨h1, h2⟩ := C108_stats hpos h name sig now
  have e1 : (fun w : Waiter => Info.isInsert w.call) = Waiter.inserts := by
    funext w; cases hc : w.call <;> simp [Info.isInsert, Waiter.inserts, hc]
  have e2 : (fun w : Waiter => Info.isSample w.call) = Waiter.samples := by
    funext w; cases hc : w.call <;> simp [Info.isSample, Waiter.samples, hc]
  simp only [h1, h2, Info.reported]
  rw [hg.insLink.count hg.base.nodup, hg.smpLink.count hg.base.nodup, e1, e2]
  exact ⟨rfl, rfl⟩

/-- C108: watching the table keeps nothing from happening. -/
theorem C108_total {size : Nat} (hpos : 0 < size) {c : Config} {o : Obs} {ins smp : List Asked} (h : Seen size c.init o ins smp)
    {a : Act} {b : S} (now : Int) (hs : Waiters.step o.base a = some b) : ∃ o', Info.step o a now = some o' ∧ o'.base = b :=
  (h.good hpos).total now hs

/-! ### The statistics of a table with table worker -/

/-- The limiter does not let the attempt through. -/
def hasToWait : Res Table.Reply → Bool
  | .ok .blocked => true
  | _ => false

theorem hasToWait_iff (r : Res Table.Reply) : hasToWait r = true ↔ r = .ok .blocked := by
  unfold hasToWait; split <;> simp_all

/-- How many of the inserts, or samples, the table worker could carry out. -/
def letThrough (t : Table) (p : Op → Bool) : List (Op × Int) → Nat
  | [] => 0
  | (op, _) :: ops =>
    (if p op = true ∧ hasToWait (t.step op).2 = false then 1 else 0) + letThrough (t.step op).1 p ops

/-- An attempt of the table worker to insert. -/
def isWorkerInsert : Op → Bool
  | .workerInsert _ _ _ => true
  | _ => false

/-- An attempt of the table worker to sample. -/
def isWorkerSample : Op → Bool
  | .workerSample _ _ => true
  | _ => false

/-- The sections of a table with table worker. -/
def withWorker : Op → Bool
  | .workerInsert _ _ _ | .workerSample _ _ | .mutate _ _ | .reset | .close => true
  | _ => false

theorem worker_kept {size : Nat} (hpos : 0 < size) : ∀ (ops : List (Op × Int)) (t : Table) (ins smp : List Asked) (mi ms : Stats.S),
    Info.Kept size ins mi → Info.Kept size smp ms → (∀ q ∈ ins, q.stop ≠ none ∧ q.waited = false) → (∀ q ∈ smp, q.stop ≠ none ∧ q.waited = false) →
    (∀ x ∈ ops, withWorker x.1 = true) →
    ∃ ins' smp' : List Asked, Info.Kept size ins' (Info.workerRun t mi ms ops).2.1 ∧ Info.Kept size smp' (Info.workerRun t mi ms ops).2.2 ∧
      (∀ q ∈ ins', q.stop ≠ none ∧ q.waited = false) ∧ (∀ q ∈ smp', q.stop ≠ none ∧ q.waited = false) ∧
      ins'.length = ins.length + letThrough t isWorkerInsert ops ∧ smp'.length = smp.length + letThrough t isWorkerSample ops := by
  intro ops
  induction ops with
  | nil => intro t ins smp mi ms h1 h2 h3 h4 _; exact ⟨ins, smp, h1, h2, h3, h4, rfl, rfl⟩
  | cons x ops ih =>
    obtain ⟨op, now⟩ := x
    intro t ins smp mi ms h1 h2 h3 h4 hops
    have hrest : ∀ x ∈ ops, withWorker x.1 = true := fun x hx => hops x (List.mem_cons_of_mem _ hx)
    have hop := hops (op, now) List.mem_cons_self
    have more : ∀ {l : List Asked} {m : Stats.S}, Info.Kept size l m → (∀ q ∈ l, q.stop ≠ none ∧ q.waited = false) →
        Info.Kept size (l ++ [⟨0, now, some now, false⟩]) (Info.instant m now) ∧
        (∀ q ∈ l ++ [(⟨0, now, some now, false⟩ : Asked)], q.stop ≠ none ∧ q.waited = false) := by
      intro l m h hc
      refine ⟨h.instant 0 now hpos fun i q hq ho => absurd ho (hc q (List.mem_of_getElem? hq)).1, fun q hq => ?_⟩
      rcases List.mem_append.mp hq with hq | hq
      · exact hc q hq
      · simp only [List.mem_singleton] at hq; subst hq; simp
    simp only [Info.workerRun, letThrough]
    cases op with
    | workerInsert i n d =>
      simp only [isWorkerInsert, isWorkerSample, Info.insertEvents, Info.sampleEvents]
      cases hcan : t.limiter.canInsert 1 with
      | true =>
        simp only [if_true]
        obtain ⟨m1, m2⟩ := more h1 h3
        obtain ⟨i', s', a1, a2, a3, a4, a5, a6⟩ := ih (t.step (.workerInsert i n d)).1 _ smp _ ms m1 h2 m2 h4 hrest
        refine ⟨i', s', a1, a2, a3, a4, ?_, ?_⟩
        · have : (t.step (.workerInsert i n d)).2 ≠ .ok .blocked := by
            simp only [Table.step, Table.workerInsert, hcan, if_true]; exact Table.reply_not_blocked _
          have : hasToWait (t.step (.workerInsert i n d)).2 = false := by
            rw [← Bool.not_eq_true, hasToWait_iff]; exact this
          rw [a5, this]
          simp only [List.length_append, List.length_singleton, and_self, if_true]
          omega
        · rw [a6]; simp
      | false =>
        simp only [Bool.false_eq_true, if_false]
        obtain ⟨i', s', a1, a2, a3, a4, a5, a6⟩ := ih (t.step (.workerInsert i n d)).1 ins smp mi ms h1 h2 h3 h4 hrest
        refine ⟨i', s', a1, a2, a3, a4, ?_, ?_⟩
        · have : (t.step (.workerInsert i n d)).2 = .ok .blocked := by
            simp [Table.step, Table.workerInsert, hcan]
          rw [a5, this]
          simp [hasToWait]
        · rw [a6]; simp
    | workerSample rl d =>
      simp only [isWorkerInsert, isWorkerSample, Info.insertEvents, Info.sampleEvents]
      cases hcan : t.limiter.maybeCommitSample with
      | some l =>
        simp only
        obtain ⟨m1, m2⟩ := more h2 h4
        obtain ⟨i', s', a1, a2, a3, a4, a5, a6⟩ := ih (t.step (.workerSample rl d)).1 ins _ mi _ h1 m1 h3 m2 hrest
        refine ⟨i', s', a1, a2, a3, a4, ?_, ?_⟩
        · rw [a5]; simp
        · have : (t.step (.workerSample rl d)).2 ≠ .ok .blocked := by
            simp only [Table.step, Table.workerSample, hcan]
            split <;> simp
          have : hasToWait (t.step (.workerSample rl d)).2 = false := by
            rw [← Bool.not_eq_true, hasToWait_iff]; exact this
          rw [a6, this]
          simp only [List.length_append, List.length_singleton, and_self, if_true]
          omega
      | none =>
        simp only
        obtain ⟨i', s', a1, a2, a3, a4, a5, a6⟩ := ih (t.step (.workerSample rl d)).1 ins smp mi ms h1 h2 h3 h4 hrest
        refine ⟨i', s', a1, a2, a3, a4, ?_, ?_⟩
        · rw [a5]; simp
        · have : (t.step (.workerSample rl d)).2 = .ok .blocked := by
            simp [Table.step, Table.workerSample, hcan]
          rw [a6, this]
          simp [hasToWait]
    | mutate us ds =>
      obtain ⟨i', s', a1, a2, a3, a4, a5, a6⟩ := ih (t.step (.mutate us ds)).1 ins smp mi ms h1 h2 h3 h4 hrest
      exact ⟨i', s', a1, a2, a3, a4, by rw [a5]; simp [isWorkerInsert], by rw [a6]; simp [isWorkerSample]⟩
    | reset =>
      obtain ⟨i', s', a1, a2, a3, a4, a5, a6⟩ := ih (t.step .reset).1 ins smp mi ms h1 h2 h3 h4 hrest
      exact ⟨i', s', a1, a2, a3, a4, by rw [a5]; simp [isWorkerInsert], by rw [a6]; simp [isWorkerSample]⟩
    | close =>
      obtain ⟨i', s', a1, a2, a3, a4, a5, a6⟩ := ih (t.step .close).1 ins smp mi ms h1 h2 h3 h4 hrest
      exact ⟨i', s', a1, a2, a3, a4, by rw [a5]; simp [isWorkerInsert], by rw [a6]; simp [isWorkerSample]⟩
    | _ => simp [withWorker] at hop

theorem reported_instants {l : List Asked} (h : ∀ q ∈ l, q.stop ≠ none ∧ q.waited = false) (now : Int) :
    Info.reported l now = ⟨0, l.length, 0, 0, 0⟩ := by
  have h1 : ∀ q ∈ l, q.stop.isNone = false := fun q hq => by
    have := (h q hq).1
    cases hs : q.stop with
    | none => exact absurd hs this
    | some e => rfl
  have h2 : ∀ q ∈ l, q.waitedFor = 0 := fun q hq => by
    unfold Asked.waitedFor
    rw [(h q hq).2]
    split <;> simp
  have e1 : l.countP (·.stop.isNone) = 0 := by
    rw [List.countP_eq_zero]; intro q hq; simp [h1 q hq]
  have e2 : l.countP (·.stop.isSome) = l.length := by
    rw [List.countP_eq_length]; intro q hq
    have := h1 q hq
    cases hs : q.stop with
    | none => rw [hs] at this; simp at this
    | some e => rfl
  have e3 : l.countP (fun q => decide (0 < q.waitedFor)) = 0 := by
    rw [List.countP_eq_zero]; intro q hq; simp [h2 q hq]
  have e4 : (l.map Asked.waitedFor).sum = 0 := by
    have : l.map Asked.waitedFor = l.map fun _ => 0 := List.map_congr_left h2
    rw [this]
    clear this e1 e2 e3 h h1 h2
    induction l with
    | nil => rfl
    | cons a l ih => simp [ih]
  have e5 : l.filter (·.stop.isNone) = [] := by
    rw [List.filter_eq_nil_iff]; intro q hq; simp [h1 q hq]
  simp only [Info.reported, e1, e2, e3, e4, e5]
  rfl

/-- C108, with a table worker. Missing: the requests that wait. Completed are those that the table worker has carried out; it is
reported that none of them was limited, that none waited, and that none is pending, whatever was in the queues (`C108_worker_false`). -/
theorem C108_worker_partial {size : Nat} (hpos : 0 < size) (t : Table) (ops : List (Op × Int)) (hops : ∀ x ∈ ops, withWorker x.1 = true)
    (name : String) (sig : Option Sig) (now : Int) :
    let r := Info.workerRun t (Stats.init size) (Stats.init size) ops
    let i := Info.tableInfo name sig r.1 r.2.1 r.2.2 now
    i.limiter.insertStats = ⟨0, letThrough t isWorkerInsert ops, 0, 0, 0⟩ ∧ i.limiter.sampleStats = ⟨0, letThrough t isWorkerSample ops, 0, 0, 0⟩ := by
  obtain ⟨i', s', a1, a2, a3, a4, a5, a6⟩ := worker_kept hpos ops t [] [] _ _ (Stats.Inv.init size) (Stats.Inv.init size) (by simp) (by simp) hops
  have ht : ∀ {l : List Asked}, (∀ q ∈ l, q.stop ≠ none ∧ q.waited = false) → Info.InTime size l :=
    fun h i q hq ho => absurd ho (h q (List.mem_of_getElem? hq)).1
  simp only [List.length_nil, Nat.zero_add] at a5 a6
  refine ⟨?_, ?_⟩
  · rw [← a5]; exact (a1.reported (ht a3) now).trans (reported_instants a3 now)
  · rw [← a6]; exact (a2.reported (ht a4) now).trans (reported_instants a4 now)

/-! ### The answer of the server -/

/-- The steps of one table among the events. -/
def actsOf (n : String) : List Event → List (Act × Int)
  | [] => []
  | .act m a now :: es => if m = n then (a, now) :: actsOf n es else actsOf n es
  | _ :: es => actsOf n es

/-- C108: asking for the info changes nothing, and the tables do not influence each other: a table makes its own steps only. -/
theorem C108_unchanged : ∀ {es : List Event} {v v' : Server}, v.run es = some v' → ∀ n, (v'.tables.get? n = none ↔ v.tables.get? n = none) ∧
    ∀ x, v.tables.get? n = some x → ∃ o, Info.run x.obs (actsOf n es) = some o ∧ v'.tables.get? n = some ⟨x.signature, o⟩ := by
  intro es
  induction es with
  | nil =>
    intro v v' h n
    cases h
    exact ⟨Iff.rfl, fun x hx => ⟨x.obs, rfl, hx⟩⟩
  | cons e es ih =>
    intro v v' h n
    simp only [Server.run] at h
    split at h
    · cases h
    · rename_i v1 h1
      have hi := ih h n
      have same : v1.tables = v.tables → actsOf n (e :: es) = actsOf n es →
          (v'.tables.get? n = none ↔ v.tables.get? n = none) ∧
          ∀ x, v.tables.get? n = some x → ∃ o, Info.run x.obs (actsOf n (e :: es)) = some o ∧ v'.tables.get? n = some ⟨x.signature, o⟩ := by
        intro h2 h3
        rw [h2] at hi
        rw [h3]
        exact hi
      cases e with
      | act m a now =>
        simp only [Server.step] at h1
        split at h1
        · cases h1
        · rename_i y hy
          split at h1
          · cases h1
          · rename_i o ho
            cases h1
            simp only [AMap.get?_insert] at hi
            simp only [actsOf]
            by_cases hm : m = n
            · subst hm
              simp only [if_true] at hi ⊢
              refine ⟨?_, fun x hx => ?_⟩
              · rw [hi.1, hy]; simp
              · rw [hy] at hx
                cases hx
                obtain ⟨o', h3, h4⟩ := hi.2 _ rfl
                exact ⟨o', by simp only [Info.run, ho]; exact h3, h4⟩
            · have : ¬ n = m := fun e => hm e.symm
              simp only [if_neg hm, if_neg this] at hi ⊢
              exact hi
      | ask order =>
        refine same ?_ rfl
        simp only [Server.step] at h1
        split at h1
        · cases h1
        · split at h1
          · cases h1; rfl
          · cases h1
      | read now =>
        refine same ?_ rfl
        simp only [Server.step] at h1
        split at h1
        · split at h1
          · cases h1; rfl
          · cases h1
        · cases h1
      | send =>
        refine same ?_ rfl
        simp only [Server.step] at h1
        split at h1
        · cases h1; rfl
        · cases h1

/-- Not the end of the call. -/
def notSend : Event → Bool
  | .send => false
  | _ => true

theorem reads : ∀ {es : List Event} {v v' : Server} {todo : List String} {got : List TableInfo}, v.run es = some v' →
    v.asking = some (todo, got) → (∀ e ∈ es, notSend e = true) →
    ∃ (done todo' : List String) (new : List TableInfo), todo = done ++ todo' ∧ v'.asking = some (todo', got ++ new) ∧ new.map (·.name) = done ∧
      ∀ i ∈ new, ∃ es1 now es2 v1 x, es = es1 ++ Event.read now :: es2 ∧ v.run es1 = some v1 ∧ v1.tables.get? i.name = some x ∧ i = x.info i.name now := by
  intro es
  induction es with
  | nil =>
    intro v v' todo got h ha _
    cases h
    exact ⟨[], todo, [], rfl, by simpa using ha, rfl, by simp⟩
  | cons e es ih =>
    intro v v' todo got h ha hn
    simp only [Server.run] at h
    split at h
    · cases h
    · rename_i v1 h1
      have hrest : ∀ e ∈ es, notSend e = true := fun x hx => hn x (List.mem_cons_of_mem _ hx)
      have later : ∀ (i : TableInfo), (∃ es1 now es2 v2 x, es = es1 ++ Event.read now :: es2 ∧ v1.run es1 = some v2 ∧ v2.tables.get? i.name = some x ∧ i = x.info i.name now) →
          ∃ es1 now es2 v2 x, e :: es = es1 ++ Event.read now :: es2 ∧ v.run es1 = some v2 ∧ v2.tables.get? i.name = some x ∧ i = x.info i.name now := by
        rintro i ⟨es1, now, es2, v2, x, rfl, h3, h4, h5⟩
        exact ⟨e :: es1, now, es2, v2, x, rfl, by simp only [Server.run, h1]; exact h3, h4, h5⟩
      cases e with
      | act m a now =>
        have h2 : v1.asking = some (todo, got) := by
          simp only [Server.step] at h1
          split at h1
          · cases h1
          · split at h1
            · cases h1
            · cases h1; exact ha
        obtain ⟨done, todo', new, q1, q2, q3, q4⟩ := ih h h2 hrest
        exact ⟨done, todo', new, q1, q2, q3, fun i hi => later i (q4 i hi)⟩
      | ask order => simp [Server.step, ha] at h1
      | send => have := hn .send List.mem_cons_self; simp [notSend] at this
      | read now =>
        simp only [Server.step, ha] at h1
        split at h1
        · rename_i n rest got' hq
          simp only [Option.some.injEq, Prod.mk.injEq] at hq
          obtain ⟨rfl, rfl⟩ := hq
          split at h1
          · rename_i x hx
            cases h1
            obtain ⟨done, todo', new, q1, q2, q3, q4⟩ := ih h rfl hrest
            have hname : (x.info n now).name = n := rfl
            refine ⟨n :: done, todo', x.info n now :: new, by rw [q1]; rfl, by rw [q2]; simp, by simp [q3, hname], fun i hi => ?_⟩
            rcases List.mem_cons.mp hi with rfl | hi
            · exact ⟨[], now, es, v, x, rfl, rfl, hx, rfl⟩
            · exact later i (q4 i hi)
          · cases h1
        · cases h1

theorem server_run_append (as bs : List Event) : ∀ (v : Server), v.run (as ++ bs) = (v.run as).bind fun v' => v'.run bs := by
  induction as with
  | nil => intro v; rfl
  | cons a as ih =>
    intro v
    simp only [List.cons_append, Server.run]
    cases v.step a with
    | none => rfl
    | some v' => exact ih v'

theorem dictionary_get (n : String) : ∀ (l : List TableInfo) (d : AMap String TableInfo), (l.map (·.name)).Nodup →
    (∀ i ∈ l, i.name = n → (l.foldl (fun d i => d.insert i.name i) d).get? n = some i) ∧
    (n ∉ l.map (·.name) → (l.foldl (fun d i => d.insert i.name i) d).get? n = d.get? n) := by
  intro l
  induction l with
  | nil => intro d _; simp
  | cons a l ih =>
    intro d hn
    simp only [List.map_cons, List.nodup_cons] at hn
    obtain ⟨h1, h2⟩ := ih (d.insert a.name a) hn.2
    simp only [List.foldl_cons]
    refine ⟨fun i hi hin => ?_, fun hnot => ?_⟩
    · rcases List.mem_cons.mp hi with rfl | hi
      · subst hin
        rw [h2 hn.1]
        simp
      · exact h1 i hi hin
    · simp only [List.map_cons, List.mem_cons, not_or] at hnot
      rw [h2 hnot.2, AMap.get?_insert]
      simp [hnot.1]

/-- C108: a call of `server_info` returns exactly one entry for every table, under its name. Each entry is the info of its table at some moment
during the call. -/
theorem C108_entries {v v' : Server} {order : List String} {es : List Event} (h : v.run (.ask order :: es ++ [.send]) = some v')
    (hn : ∀ e ∈ es, notSend e = true) : ∃ infos, v'.answer = some infos ∧ infos.length = v.tables.size ∧
      ∀ n, ((v.tables.get? n = none → (Info.dictionary infos).get? n = none) ∧
        (∀ x0, v.tables.get? n = some x0 → ∃ es1 now es2 v1 x, es = es1 ++ Event.read now :: es2 ∧ v.run (.ask order :: es1) = some v1 ∧
          v1.tables.get? n = some x ∧ (Info.dictionary infos).get? n = some (x.info n now))) := by
  rw [List.cons_append] at h
  simp only [Server.run] at h
  split at h
  · cases h
  · rename_i v1 h1
    have hask : v1.asking = some (order, []) ∧ v1.tables = v.tables ∧ order.Perm v.tables.keys := by
      simp only [Server.step] at h1
      split at h1
      · cases h1
      · split at h1
        · rename_i hp
          cases h1; exact ⟨rfl, rfl, List.isPerm_iff.mp hp⟩
        · cases h1
    rw [server_run_append] at h
    cases hr : v1.run es with
    | none => simp [hr] at h
    | some v2 =>
      simp only [hr, Option.bind_some, Server.run] at h
      obtain ⟨done, todo', new, q1, q2, q3, q4⟩ := reads hr hask.1 hn
      split at h
      · cases h
      · rename_i v3 h3
        cases h
        simp only [Server.step, q2, List.nil_append] at h3
        cases todo' with
        | cons a b => simp at h3
        | nil =>
          simp only [Option.some.injEq] at h3
          rw [List.append_nil] at q1
          subst q1
          refine ⟨new, by rw [← h3], ?_, fun n => ?_⟩
          · have := hask.2.2.length_eq
            rw [← q3] at this
            simpa using this
          · have hnd : (new.map (·.name)).Nodup := by
              rw [q3]; exact hask.2.2.nodup_iff.mpr v.tables.keys_nodup
            have hmem : n ∈ new.map (·.name) ↔ (v.tables.get? n).isSome = true := by
              rw [q3, hask.2.2.mem_iff, AMap.mem_keys_iff]
            obtain ⟨d1, d2⟩ := dictionary_get n new AMap.empty hnd
            refine ⟨fun hx => ?_, fun x0 hx => ?_⟩
            · unfold Info.dictionary
              rw [d2 (by rw [hmem, hx]; simp)]
              rfl
            · obtain ⟨i, hi, hin⟩ := List.mem_map.mp (hmem.mpr (by rw [hx]; rfl))
              obtain ⟨es1, now, es2, v2', x, r1, r2, r3, r4⟩ := q4 i hi
              rw [hin] at r3 r4
              refine ⟨es1, now, es2, v2', x, r1, by simp only [Server.run, h1]; exact r2, r3, ?_⟩
              rw [← r4]
              exact d1 i hi hin

/-! ### Concrete cases -/

/-- A schedule with the questions; `none` if the buffer overflows. -/
def watch (size : Nat) (o : Obs) (ins smp : List Asked) : List (Act × Int) → Option (Obs × List Asked × List Asked)
  | [] => some (o, ins, smp)
  | (a, now) :: as =>
    match Info.step o a now with
    | none => none
    | some o' =>
      let ins' := Info.askInsert o.base o'.base now ins a
      let smp' := Info.askSample o.base o'.base now smp a
      if (List.range ins'.length).all (fun i => (ins'[i]?).all fun q => q.stop.isSome || decide (ins'.length ≤ i + size)) &&
          (List.range smp'.length).all (fun i => (smp'[i]?).all fun q => q.stop.isSome || decide (smp'.length ≤ i + size)) then
        watch size o' ins' smp' as
      else none

theorem inTime_of {size : Nat} {l : List Asked}
    (h : (List.range l.length).all (fun i => (l[i]?).all fun q => q.stop.isSome || decide (l.length ≤ i + size)) = true) : Info.InTime size l := by
  intro i q hq ho
  rw [List.all_eq_true] at h
  have := h i (List.mem_range.mpr (List.getElem?_eq_some_iff.mp hq).1)
  simpa [hq, ho] using this

theorem watch_seen {size : Nat} {t : Table} : ∀ (as : List (Act × Int)) {o : Obs} {ins smp : List Asked} {r : Obs × List Asked × List Asked},
    Seen size t o ins smp → watch size o ins smp as = some r → Seen size t r.1 r.2.1 r.2.2 := by
  intro as
  induction as with
  | nil => intro o ins smp r h hw; cases hw; exact h
  | cons x as ih =>
    obtain ⟨a, now⟩ := x
    intro o ins smp r h hw
    simp only [watch] at hw
    split at hw
    · cases hw
    · rename_i o' hs
      split at hw
      · rename_i hc
        rw [Bool.and_eq_true] at hc
        exact ih (.step h hs (inTime_of hc.1) (inTime_of hc.2)) hw
      · cases hw

/-- Two inserts at once; two more wait from 3 and from 4; a sample at 6 lets the first of them go on at 9; a sampler of three gets one and
then as many as there are; another sampler waits. -/
def infoActs : List (Act × Int) :=
  [(put 1, 1), (put 2, 2), (put 3, 3), (put 4, 4), (.call 5 (.sample 1) gateEnv, 6), (.wake 3 gateEnv, 9),
   (.call 6 (.sample 3) gateEnv, 11), (.timeout 4, 12), (.call 7 (.sample 1) gateEnv, 15)]

example : (watch 3 (Info.init 3 (gateCfg).init) [] [] infoActs).map (fun r => (r.2.1, r.2.2, Info.callStats r.1.ins 20, Info.callStats r.1.smp 20)) =
    some ([⟨1, 1, some 1, false⟩, ⟨2, 2, some 2, false⟩, ⟨3, 3, some 9, true⟩, ⟨4, 4, some 12, true⟩],
      [⟨5, 6, some 6, false⟩, ⟨6, 11, some 11, false⟩, ⟨6, 11, some 11, false⟩, ⟨7, 15, none, true⟩],
      ⟨0, 4, 2, 14, 0⟩, ⟨1, 3, 0, 0, 5⟩) := by decide +kernel

/-- That schedule is one of those that the theorems speak of. -/
theorem info_seen : ∃ o ins smp, Seen 3 (gateCfg).init o ins smp ∧ ins.length = 4 ∧ smp.length = 4 ∧ o.base.waiters.length = 1 := by
  have h : (watch 3 (Info.init 3 (gateCfg).init) [] [] infoActs).any (fun r => r.2.1.length = 4 ∧ r.2.2.length = 4 ∧ r.1.base.waiters.length = 1) = true := by
    decide +kernel
  cases hw : watch 3 (Info.init 3 (gateCfg).init) [] [] infoActs with
  | none => rw [hw] at h; simp at h
  | some r => exact ⟨r.1, r.2.1, r.2.2, watch_seen infoActs .init hw, by rw [hw] at h; simpa using h⟩

/-- With a table worker an insert has to wait from 3 to 9, and another is still waiting: the first two go through at 1 and 2, the third is tried in vain
at 3 and, after a sample at 6, goes through at 9; the fourth is tried in vain at 10. -/
def workerOps : List (Op × Int) :=
  [(.workerInsert (demoItem 1 1 1 1) 1 (draw 0), 1), (.workerInsert (demoItem 2 1 2 2) 2 (draw 0), 2),
   (.workerInsert (demoItem 3 1 3 3) 3 (draw 0), 3), (.workerSample false (draw 0), 6),
   (.workerInsert (demoItem 3 1 3 3) 9 (draw 0), 9), (.workerInsert (demoItem 4 1 4 4) 10 (draw 0), 10)]

/-- C108 is false with a table worker (table.cc:238-239, 254): an insert that had to wait is not counted as limited and has not waited, and one
that waits is not pending. -/
theorem C108_worker_false : (∀ x ∈ workerOps, withWorker x.1 = true) ∧
    ((gateCfg).init.replies (workerOps.map Prod.fst)).map hasToWait = [false, false, true, false, false, true] ∧
    Info.callStats (Info.workerRun (gateCfg).init (Stats.init 3) (Stats.init 3) workerOps).2.1 20 = ⟨0, 3, 0, 0, 0⟩ := by decide +kernel

/-- schema.proto:187-188 says that the total number of episodes is `num_episodes + num_deleted_episodes`. That is false: here there is one
episode, which is counted twice because its item was deleted and another one inserted. -/
theorem C108_episodes_false : ∃ t, demoCfg.Reachable t ∧
    let i := Info.tableInfo "t" none t (Stats.init 3) (Stats.init 3) 20
    i.numEpisodes = 1 ∧ i.numDeletedEpisodes = 1 ∧ ∀ it, ExtEvent.insert it ∈ t.log → ∀ ch ∈ it.chunks, ch.episode = 100 := by
  obtain ⟨t, h1, h2⟩ := Config.witness (c := demoCfg) [.insert (demoItem 1 5 10 100) 11 (draw 0), .mutate [] [1], .insert (demoItem 2 5 11 100) 12 (draw 0)]
    (fun t => decide (t.numEpisodes = 1) && decide (t.numDeletedEpisodes = 1) && t.log.all fun e => match e with
      | .insert it => it.chunks.all fun ch => decide (ch.episode = 100)
      | _ => true) (by decide +kernel) (by decide +kernel)
  refine ⟨t, h1, ?_⟩
  simp only [Bool.and_eq_true, decide_eq_true_eq, List.all_eq_true] at h2
  refine ⟨h2.1.1, h2.1.2, fun it hit ch hch => ?_⟩
  have := h2.2 _ hit
  simp only [List.all_eq_true, decide_eq_true_eq] at this
  exact this ch hch

/-- Two empty tables. -/
def twoTables : Server :=
  ⟨(AMap.empty.insert "a" ⟨none, Info.init 3 (gateCfg).init⟩).insert "b" ⟨none, Info.init 3 (gateCfg).init⟩, none, none⟩

/-- `ServerInfo` looks at "a"; a client inserts into "a" and, when that is done, into "b"; `ServerInfo` looks at "b". -/
def infoEvents : List Event := [.ask ["a", "b"], .read 1, .act "a" (put 1) 2, .act "b" (put 1) 3, .read 4, .send]

/-- The number of items of a table. -/
def Info.Server.sizeOf (v : Server) (n : String) : Nat := ((v.tables.get? n).map fun x => x.obs.base.table.size).getD 0

/-- The tables are not looked at in the same moment: according to the answer "b" has an item and "a" has none, though the item was in "a" all the time
when there was one in "b". The sizes (of both tables) before and after each step show that. -/
theorem C108_snapshot_false :
    ((twoTables.run infoEvents).bind Server.answer).map (fun l => l.map fun i => (i.name, i.currentSize)) = some [("a", 0), ("b", 1)] ∧
    (List.range 7).map (fun k => (twoTables.run (infoEvents.take k)).map fun v => (v.sizeOf "a", v.sizeOf "b")) =
      [some (0, 0), some (0, 0), some (0, 0), some (1, 0), some (1, 1), some (1, 1), some (1, 1)] := by decide +kernel

/-- The answer and the dictionary in that case. -/
example : ((twoTables.run infoEvents).bind Server.answer).map (fun l => (((Info.dictionary l).get? "a").map (·.currentSize), ((Info.dictionary l).get? "b").map
    (·.limiter.insertStats), ((Info.dictionary l).get? "c").isNone)) = some (some 0, some ⟨0, 1, 0, 0, 0⟩, true) := by decide +kernel

end Verif
