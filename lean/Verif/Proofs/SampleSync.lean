import Verif.Proofs.TableBatch
import Verif.Proofs.Sample
import Verif.Spec.SampleService
import Verif.Proofs.InsertSync
/-
Invariant of the sample streams of the synchronous server.
-/
namespace Verif
open Table (Op)

theorem Served.weaken : ∀ {reqs : List SampleReq} {got : List (String × Sampled)} {full : Bool}, Served full reqs got → Served false reqs got
  | [], _, _, h => h
  | _ :: _, _, _, ⟨a, b, h1, h2, _, h4, h5⟩ => ⟨a, b, h1, h2, by simp, h4, h5.weaken⟩

theorem Served.snoc {full : Bool} {r : SampleReq} {b : List (String × Sampled)} (hl : b.length ≤ r.num.toNat)
    (hf : full = true → b.length = r.num.toNat) (ht : ∀ x ∈ b, x.1 = r.table) : ∀ {reqs : List SampleReq} {a : List (String × Sampled)},
    Served full reqs a → Served full (reqs ++ [r]) (a ++ b)
  | [], _, h => by
    have h : _ = _ := h
    subst h
    exact ⟨b, [], by simp, hl, hf, ht, rfl⟩
  | _ :: _, _, ⟨x, y, h1, h2, h3, h4, h5⟩ => ⟨x, y ++ b, by rw [h1, List.append_assoc], h2, h3, h4, h5.snoc hl hf ht⟩

theorem defaultBatch_pos (t : Table) : 1 ≤ t.defaultBatch := by
  unfold Table.defaultBatch
  split
  · rename_i h
    exact Rat.le_floor_iff.mpr (by grind)
  · split
    · split <;> omega
    · omega

namespace SyncSampler

theorem clientSamples_prefix {a b : List Entry} (h : a <+: b) : clientSamples a <+: clientSamples b := by
  obtain ⟨c, rfl⟩ := h
  obtain ⟨more, hm⟩ := collect_prefix c (a.foldl collect ([], []))
  unfold clientSamples collectAll
  rw [List.foldl_append, hm, List.map_append]
  exact List.prefix_append _ _

/-- The entries that carry the samples. -/
def msgs (w : Wire) (got : List (String × Sampled)) : List Entry := got.flatMap fun x => splitSync w.size w.max (x.2.sent w)

/-- The samples got so far, `c` of them for the last request. -/
def Part (full : Bool) (reqs : List SampleReq) (got : List (String × Sampled)) (req : SampleReq) (c : Int) : Prop :=
  ∃ before a b, reqs = before ++ [req] ∧ got = a ++ b ∧ Served full before a ∧ (b.length : Int) = c ∧ c ≤ req.num ∧ ∀ x ∈ b, x.1 = req.table

theorem Part.weaken {full : Bool} {reqs : List SampleReq} {got : List (String × Sampled)} {req : SampleReq} {c : Int}
    (h : Part full reqs got req c) : Part false reqs got req c := by
  obtain ⟨before, a, b, h1, h2, h3, h4⟩ := h
  exact ⟨before, a, b, h1, h2, h3.weaken, h4⟩

theorem Part.served {full full' : Bool} {reqs : List SampleReq} {got : List (String × Sampled)} {req : SampleReq} {c : Int}
    (h : Part full reqs got req c) (hf : full' = true → full = true ∧ c = req.num) : Served full' reqs got := by
  obtain ⟨before, a, b, rfl, rfl, h3, h4, h5, h6⟩ := h
  refine Served.snoc (by omega) (fun g => by have := (hf g).2; omega) h6 ?_
  cases full' with
  | true => rw [← (hf rfl).1]; exact h3
  | false => exact h3.weaken

theorem Part.more {full : Bool} {reqs : List SampleReq} {got : List (String × Sampled)} {req : SampleReq} {c : Int}
    (h : Part full reqs got req c) (l : List Sampled) (hl : c + l.length ≤ req.num) :
    Part full reqs (got ++ l.map (req.table, ·)) req (c + l.length) := by
  obtain ⟨before, a, b, h1, h2, h3, h4, h5, h6⟩ := h
  refine ⟨before, a, b ++ l.map (req.table, ·), h1, by rw [h2, List.append_assoc], h3, by simp [← h4], hl, ?_⟩
  intro x hx
  rcases List.mem_append.mp hx with hx | hx
  · exact h6 x hx
  · obtain ⟨y, _, rfl⟩ := List.mem_map.mp hx
    rfl

/-- What the phase says about the samples and responses. -/
def PhaseOk (w : Wire) (reqs : List SampleReq) (t0 : Option Int) (tm : Option Duration) (full : Bool) (wr : List Entry)
    (got : List (String × Sampled)) : SampPhase → Prop
  | .reading => Served full reqs got ∧ wr = msgs w got
  | .ready req d c => Part full reqs got req c ∧ wr = msgs w got ∧ 1 ≤ d ∧ req.valid = true ∧ t0 = none
  | .waiting req d c dl => Part full reqs got req c ∧ wr = msgs w got ∧ 1 ≤ d ∧ req.valid = true ∧ c < req.num ∧
      ∃ t, t0 = some t ∧ dl = deadlineAt t (tm.getD none)
  | .writing req d c todo => Part full reqs got req c ∧ wr ++ todo = msgs w got ∧ 1 ≤ d ∧ req.valid = true
  | .ended none => Served full reqs got ∧ wr = msgs w got
  | .ended (some c) => Served false reqs got ∧ wr <+: msgs w got ∧ (c = .deadlineExceeded → ∃ ms, tm = some (some ms))

/-- The state of a stream after the requests. -/
structure StreamOk (w : Wire) (tables : AMap String Table) (reqs : List SampleReq) (t0 : Option Int) (x : SampStream) : Prop where
  items : ∀ y ∈ x.got, Table.itemValid y.2.item = true
  logged : ∀ name t, tables.get? name = some t → (samplesFrom name x.got).Sublist t.log
  known : ∀ y ∈ x.got, tables.contains y.1 = true
  timeout : x.timeout = reqs.head?.map SampleReq.syncTimeout
  phase : PhaseOk w reqs t0 x.timeout (!x.cancelled) x.written x.got x.phase

/-- The tables go on. -/
def TGrow (a b : AMap String Table) : Prop := ∀ name,
  (∀ t, b.get? name = some t → ∃ t0, a.get? name = some t0 ∧ t0.log <+: t.log) ∧ (b.contains name = a.contains name)

theorem TGrow.rfl {a : AMap String Table} : TGrow a a := fun _ => ⟨fun t h => ⟨t, h, List.prefix_rfl⟩, _root_.rfl⟩

theorem TGrow.insert {a : AMap String Table} {name : String} {t t' : Table} (h : a.get? name = some t) (g : t.log <+: t'.log) :
    TGrow a (a.insert name t') := by
  intro n
  constructor
  · intro x hx
    rw [AMap.get?_insert] at hx
    split at hx
    · cases hx; subst_vars; exact ⟨t, h, g⟩
    · exact ⟨x, hx, List.prefix_rfl⟩
  · simp only [AMap.contains, AMap.get?_insert]
    split
    · subst_vars; rw [h]; simp
    · simp

theorem StreamOk.grow {w : Wire} {a b : AMap String Table} {reqs : List SampleReq} {t0 : Option Int} {x : SampStream}
    (h : StreamOk w a reqs t0 x) (g : TGrow a b) : StreamOk w b reqs t0 x := by
  refine ⟨h.items, fun name t ht => ?_, fun y hy => ?_, h.timeout, h.phase⟩
  · obtain ⟨t', h1, h2⟩ := (g name).1 t ht
    exact (h.logged name t' h1).trans h2.sublist
  · rw [(g y.1).2]; exact h.known y hy

/-- The invariant. -/
structure Inv (w : Wire) (evs : List Event) (v : SyncSampler) : Prop where
  valid : ∀ name t, v.tables.get? name = some t → AllValid t.data
  fresh : ∀ s, v.streams.get? s = none → requests s evs = [] ∧ callStart s evs = none ∧ ¬ Cancelled s evs
  ok : ∀ s x, v.streams.get? s = some x → StreamOk w v.tables (requests s evs) (callStart s evs) x
  cancelled : ∀ s x, v.streams.get? s = some x → (x.cancelled = true ↔ Cancelled s evs)

theorem setStream_get (v : SyncSampler) (s s' : Nat) (x : SampStream) :
    (v.setStream s x).streams.get? s' = if s' = s then some x else v.streams.get? s' := by
  simp [setStream, AMap.get?_insert]

theorem requests_snoc (s : Nat) (evs : List Event) (e : Event) : requests s (evs ++ [e]) = requests s evs ++ requests s [e] := by
  simp [requests]

theorem callStart_snoc (s : Nat) (evs : List Event) (e : Event) : callStart s (evs ++ [e]) = callStep s (callStart s evs) e := by
  simp [callStart]

theorem cancelled_snoc (s : Nat) (evs : List Event) (e : Event) : Cancelled s (evs ++ [e]) ↔ Cancelled s evs ∨ e = .cancel s := by
  simp [Cancelled, eq_comm]

/-- The event does not concern the stream. -/
structure Apart (s : Nat) (e : Event) : Prop where
  req : requests s [e] = []
  call : ∀ t, callStep s t e = t
  canc : e ≠ .cancel s

theorem Inv.set {w : Wire} {evs : List Event} {v v1 : SyncSampler} {e : Event} (h : Inv w evs v) {s : Nat} {x : SampStream}
    (h1 : v1.streams = v.streams) (h2 : ∀ s', s' ≠ s → Apart s' e) (hg : TGrow v.tables v1.tables)
    (hv : ∀ name t, v1.tables.get? name = some t → AllValid t.data)
    (hx : StreamOk w v1.tables (requests s (evs ++ [e])) (callStart s (evs ++ [e])) x)
    (hc : x.cancelled = true ↔ Cancelled s (evs ++ [e])) : Inv w (evs ++ [e]) (v1.setStream s x) := by
  refine ⟨hv, fun s' hs => ?_, fun s' x' hs => ?_, fun s' x' hs => ?_⟩
  · rw [setStream_get, h1] at hs
    split at hs
    · cases hs
    · rename_i hne
      have g := h2 s' hne
      obtain ⟨f1, f2, f3⟩ := h.fresh _ hs
      rw [requests_snoc, callStart_snoc, cancelled_snoc, g.req, g.call, f1]
      exact ⟨rfl, f2, by simp [f3, g.canc]⟩
  · rw [setStream_get, h1] at hs
    split at hs
    · cases hs; subst_vars; exact hx
    · rename_i hne
      have g := h2 s' hne
      rw [requests_snoc, callStart_snoc, g.req, g.call, List.append_nil]
      exact (h.ok _ _ hs).grow hg
  · rw [setStream_get, h1] at hs
    split at hs
    · cases hs; subst_vars; exact hc
    · rename_i hne
      have g := h2 s' hne
      rw [cancelled_snoc, h.cancelled _ _ hs]
      simp [g.canc]

theorem msgs_append (w : Wire) (a : List (String × Sampled)) (t : String) (l : List Sampled) :
    msgs w (a ++ l.map (t, ·)) = msgs w a ++ l.flatMap fun y => splitSync w.size w.max (y.sent w) := by
  simp [msgs, List.flatMap_map]

theorem samplesFrom_append (n : String) (a b : List (String × Sampled)) : samplesFrom n (a ++ b) = samplesFrom n a ++ samplesFrom n b := by
  simp [samplesFrom]

theorem samplesFrom_table (n t : String) (l : List Sampled) : samplesFrom n (l.map (t, ·)) = if t = n then l.map (fun y => .sample y.item) else [] := by
  simp only [samplesFrom, List.filter_map]
  split
  · rename_i h
    subst h
    rw [List.filter_eq_self.mpr (by simp)]
    simp
  · rename_i h
    simp [h]

theorem afterWrite_ok {w : Wire} {reqs : List SampleReq} {tm : Option Duration} {full : Bool} {wr : List Entry}
    {got : List (String × Sampled)} {req : SampleReq} {d c : Int} {todo : List Entry} {t0 : Option Int} (h : Part full reqs got req c)
    (h1 : wr ++ todo = msgs w got) (h2 : 1 ≤ d) (h3 : req.valid = true) (h4 : todo = [] → t0 = none) :
    PhaseOk w reqs t0 tm full wr got (afterWrite req d c todo) := by
  unfold afterWrite
  split
  · exact ⟨h, by simpa using h1, h2, h3, h4 rfl⟩
  · exact ⟨h, h1, h2, h3⟩

/-- A result of the table. -/
theorem Inv.sampled {w : Wire} (hw : ∀ k, (w.content k).key = k) {evs : List Event} {v v1 : SyncSampler} {s : Nat} {now : Int} {ds : Nat → Draw}
    (h : Inv w evs v) {x : SampStream} {req : SampleReq} {d c : Int} {dl : Duration} {r : Table × Res Table.Reply} {t : Table}
    (h1 : v1.streams = v.streams) (ht : v.tables.get? req.table = some t) (hv1 : v1.tables = v.tables.insert req.table r.1)
    (hx : v.streams.get? s = some x) (hp : Part (!x.cancelled) (requests s evs) x.got req c) (hwr : x.written = msgs w x.got)
    (hd : 1 ≤ d) (hval : req.valid = true) (hc : c < req.num)
    (hb : Table.BatchOk (batchSize req d c) r) (hgrow : Table.Grows t r.1)
    (herr : ∀ c, r.2 = .err c → c ≠ .deadlineExceeded)
    (hrep : ∀ l, r.2 = .ok (.samples l) → Table.Reports t r.1 l)
    (hdl : dl = deadlineAt (((callStart s evs)).getD now) (x.timeout.getD none))
    (hdead : (sampled w v1 s x req d c dl r.2).dead = false) :
    Inv w (evs ++ [.sample s now ds]) (sampled w v1 s x req d c dl r.2) := by
  have ha : ∀ s', s' ≠ s → Apart s' (.sample s now ds) := fun s' hne =>
    ⟨by simp [requests], fun t => by simp [callStep, Ne.symm hne], by simp⟩
  have hg : TGrow v.tables v1.tables := hv1 ▸ .insert ht hgrow.log
  have hv : ∀ name t, v1.tables.get? name = some t → AllValid t.data := by
    intro name t' h'
    rw [hv1, AMap.get?_insert] at h'
    split at h'
    · cases h'; exact hb.keeps
    · exact h.valid _ _ h'
  have h0 := h.ok s x hx
  have hcn := h.cancelled s x hx
  have hreq : requests s (evs ++ [.sample s now ds]) = requests s evs := by rw [requests_snoc]; simp [requests]
  have hcs : callStart s (evs ++ [.sample s now ds]) = some ((callStart s evs).getD now) := by rw [callStart_snoc]; simp [callStep]
  have hcc : x.cancelled = true ↔ Cancelled s (evs ++ [.sample s now ds]) := by rw [cancelled_snoc, hcn]; simp
  unfold SyncSampler.sampled at hdead ⊢
  split
  · rename_i l hl
    obtain ⟨g1, g2, g3⟩ := hb.res.2 l hl
    have hbs : batchSize req d c ≤ (req.num - c).toNat := by unfold batchSize; omega
    have hb1 : 1 ≤ batchSize req d c := by
      unfold batchSize SampleReq.batch
      simp only [SampleReq.valid, Bool.and_eq_true, Bool.or_eq_true, decide_eq_true_eq] at hval
      split <;> omega
    have hlen : c + (l.length : Int) ≤ req.num := by omega
    refine h.set h1 ha hg hv ⟨?_, ?_, ?_, ?_, ?_⟩ hcc
    · intro y hy
      rcases List.mem_append.mp hy with hy | hy
      · exact h0.items y hy
      · obtain ⟨z, hz, rfl⟩ := List.mem_map.mp hy
        exact g1 z hz
    · intro name t' h'
      show (samplesFrom name (x.got ++ l.map (req.table, ·))).Sublist _
      rw [samplesFrom_append, samplesFrom_table]
      rw [hv1, AMap.get?_insert] at h'
      split at h'
      · rename_i hn
        cases h'
        rw [if_pos hn.symm]
        obtain ⟨added, e1, e2⟩ := hrep l hl
        rw [e1]
        exact (h0.logged _ _ (hn ▸ ht)).append e2
      · rename_i hn
        rw [if_neg (fun g => hn g.symm), List.append_nil]
        exact h0.logged _ _ h'
    · intro y hy
      rw [(hg y.1).2]
      rcases List.mem_append.mp hy with hy | hy
      · exact h0.known y hy
      · obtain ⟨z, hz, rfl⟩ := List.mem_map.mp hy
        simp [AMap.contains, ht]
    · rw [hreq]; exact h0.timeout
    · rw [hreq]
      refine afterWrite_ok (hp.more l hlen) ?_ hd hval ?_
      · show x.written ++ _ = msgs w (x.got ++ _)
        rw [hwr, msgs_append]
      · intro hnil
        obtain ⟨y, hy⟩ := List.exists_mem_of_length_pos g2
        have hvy := (Sampled.sent_valid (w := w) hw (g1 y hy)).ne
        have := (split_carries w.size w.max hvy).last
        obtain ⟨i, e, he, _⟩ := this
        rw [List.flatMap_eq_nil_iff] at hnil
        have := hnil y hy
        rw [he] at this
        simp at this
  · refine h.set h1 ha hg hv ⟨h0.items, fun n t h' => (h0.grow hg).logged n t h', fun y hy => (h0.grow hg).known y hy, ?_, ?_⟩ hcc
    · rw [hreq]; exact h0.timeout
    · rw [hreq, hcs]
      exact ⟨hp, hwr, hd, hval, hc, _, rfl, hdl⟩
  · rename_i hr
    exact absurd hr hb.res.1
  · rename_i e hr
    refine h.set h1 ha hg hv ⟨h0.items, fun n t h' => (h0.grow hg).logged n t h', fun y hy => (h0.grow hg).known y hy, ?_, ?_⟩ hcc
    · rw [hreq]; exact h0.timeout
    · rw [hreq]
      exact ⟨hp.served (by simp), hwr ▸ List.prefix_rfl, fun g => absurd g (herr _ hr)⟩
  · simp_all

/-- A stream of which nothing but the phase changes. -/
theorem Inv.phase {w : Wire} {evs : List Event} {v : SyncSampler} {e : Event} (h : Inv w evs v) {s : Nat} {x x' : SampStream}
    (hx : v.streams.get? s = some x) (h2 : ∀ s', s' ≠ s → Apart s' e) (hgot : x'.got = x.got)
    (ht : x'.timeout = (requests s (evs ++ [e])).head?.map SampleReq.syncTimeout)
    (hp : PhaseOk w (requests s (evs ++ [e])) (callStart s (evs ++ [e])) x'.timeout (!x'.cancelled) x'.written x'.got x'.phase)
    (hc : x'.cancelled = true ↔ Cancelled s (evs ++ [e])) : Inv w (evs ++ [e]) (v.setStream s x') := by
  have h0 := h.ok s x hx
  exact h.set rfl h2 .rfl h.valid ⟨by rw [hgot]; exact h0.items, by rw [hgot]; exact h0.logged, by rw [hgot]; exact h0.known, ht, hp⟩ hc

theorem PhaseOk.weaken {w : Wire} {reqs : List SampleReq} {t0 : Option Int} {tm : Option Duration} {full : Bool} {wr : List Entry}
    {got : List (String × Sampled)} {p : SampPhase} (h : PhaseOk w reqs t0 tm full wr got p) : PhaseOk w reqs t0 tm false wr got p := by
  cases p with
  | reading => exact ⟨h.1.weaken, h.2⟩
  | ready => exact ⟨h.1.weaken, h.2⟩
  | waiting => exact ⟨h.1.weaken, h.2⟩
  | writing => exact ⟨h.1.weaken, h.2⟩
  | ended st =>
    cases st with
    | none => exact ⟨h.1.weaken, h.2⟩
    | some c => exact h

theorem Inv.step {w : Wire} (hw : ∀ k, (w.content k).key = k) {evs : List Event} {v v' : SyncSampler} {e : Event} (h : Inv w evs v)
    (hop : ∀ name op, e = .table name op → OpValid op) (hs : v.step w e = some v') (hd : v'.dead = false) : Inv w (evs ++ [e]) v' := by
  unfold SyncSampler.step at hs
  split at hs
  · cases hs
  · cases e with
    | start s =>
      simp only at hs
      split at hs
      · cases hs
      · rename_i hn
        cases hs
        have hnone : v.streams.get? s = none := by simpa [AMap.contains] using hn
        obtain ⟨f1, f2, f3⟩ := h.fresh s hnone
        have hr : requests s (evs ++ [.start s]) = [] := by rw [requests_snoc, f1]; rfl
        refine h.set rfl (fun s' _ => ⟨rfl, fun _ => rfl, by simp⟩) .rfl h.valid ⟨by simp, by simp [samplesFrom], by simp, by rw [hr]; rfl, ?_⟩ ?_
        · rw [hr]; exact ⟨rfl, rfl⟩
        · rw [cancelled_snoc]; simp [f3]
    | request s req =>
      simp only at hs
      split at hs
      · rename_i tm cn wr got hx
        cases hs
        have h0 := h.ok s _ hx
        have hcn := h.cancelled s _ hx
        have hreq : requests s (evs ++ [.request s req]) = requests s evs ++ [req] := by rw [requests_snoc]; simp [requests]
        have hcs : callStart s (evs ++ [.request s req]) = none := by rw [callStart_snoc]; simp [callStep]
        have hap : ∀ s', s' ≠ s → Apart s' (.request s req) := fun s' hne =>
          ⟨by simp [requests, Ne.symm hne], fun t => by simp [callStep, Ne.symm hne], by simp⟩
        have hcc : cn = true ↔ Cancelled s (evs ++ [.request s req]) := by rw [cancelled_snoc]; simp only at hcn; rw [hcn]; simp
        have htm : some (tm.getD req.syncTimeout) = (requests s evs ++ [req]).head?.map SampleReq.syncTimeout := by
          have := h0.timeout
          simp only at this
          rw [this]
          cases requests s evs <;> rfl
        obtain ⟨p1, p2⟩ := h0.phase
        simp only at p1 p2
        have hbad : ∀ c, c ≠ Code.deadlineExceeded → PhaseOk w (requests s (evs ++ [.request s req])) (callStart s (evs ++ [.request s req]))
            (some (tm.getD req.syncTimeout)) (!cn) wr got (.ended (some c)) := by
          intro c hc
          refine ⟨?_, p2 ▸ List.prefix_rfl, fun g => absurd g hc⟩
          rw [hreq]
          simpa using Served.snoc (full := false) (r := req) (b := []) (by simp) (by simp) (by simp) p1.weaken
        unfold take
        simp only
        split
        · rename_i hval
          split
          · exact h.phase hx hap rfl (by rw [hreq]; exact htm) (hbad _ (by simp)) hcc
          · rename_i t ht
            refine h.phase hx hap rfl (by rw [hreq]; exact htm) ?_ hcc
            rw [hreq]
            refine ⟨⟨requests s evs, got, [], rfl, by simp, p1, by simp, ?_, by simp⟩, p2, defaultBatch_pos t, hval, hcs⟩
            simp only [SampleReq.valid, Bool.and_eq_true, decide_eq_true_eq] at hval
            omega
        · exact h.phase hx hap rfl (by rw [hreq]; exact htm) (hbad _ (by simp)) hcc
      · cases hs
    | eof s =>
      simp only at hs
      split at hs
      · rename_i tm cn wr got hx
        cases hs
        have h0 := h.ok s _ hx
        have hcn := h.cancelled s _ hx
        have hreq : requests s (evs ++ [.eof s]) = requests s evs := by rw [requests_snoc]; simp [requests]
        obtain ⟨p1, p2⟩ := h0.phase
        refine h.phase hx (fun s' _ => ⟨rfl, fun _ => rfl, by simp⟩) rfl (by rw [hreq]; exact h0.timeout) ?_ (by rw [cancelled_snoc, ← hcn]; simp)
        rw [hreq]
        simp only
        split
        · exact ⟨p1.weaken, p2 ▸ List.prefix_rfl, by simp⟩
        · exact ⟨p1, p2⟩
      · cases hs
    | cancel s =>
      simp only at hs
      split at hs
      · rename_i x hx
        cases hs
        have h0 := h.ok s _ hx
        have hreq : requests s (evs ++ [.cancel s]) = requests s evs := by rw [requests_snoc]; simp [requests]
        have hcs : callStart s (evs ++ [.cancel s]) = callStart s evs := by rw [callStart_snoc]; simp [callStep]
        refine h.phase hx (fun s' hne => ⟨rfl, fun _ => rfl, by simp [Ne.symm hne]⟩) rfl (by rw [hreq]; exact h0.timeout) ?_
          (by rw [cancelled_snoc]; simp)
        rw [hreq, hcs]
        exact h0.phase.weaken
      · cases hs
    | next s =>
      simp only at hs
      split at hs
      · rename_i tm cn req d c wr got hx
        split at hs
        · rename_i hcond
          cases hs
          have h0 := h.ok s _ hx
          have hcn := h.cancelled s _ hx
          have hreq : requests s (evs ++ [.next s]) = requests s evs := by rw [requests_snoc]; simp [requests]
          obtain ⟨p1, p2, _⟩ := h0.phase
          refine h.phase hx (fun s' _ => ⟨rfl, fun _ => rfl, by simp⟩) rfl (by rw [hreq]; exact h0.timeout) ?_ (by rw [cancelled_snoc, ← hcn]; simp)
          rw [hreq]
          refine ⟨p1.served fun g => ?_, p2⟩
          simp only [Bool.not_eq_true'] at g
          subst g
          exact ⟨rfl, by simpa using hcond⟩
        · cases hs
      · cases hs
    | sample s now ds =>
      simp only at hs
      split at hs
      · rename_i tm cn req d c wr got hx
        split at hs
        · cases hs
        · rename_i hcond
          unfold section_ at hs
          split at hs
          · cases hs
          · rename_i t ht
            simp only [Option.some.injEq] at hs
            subst hs
            have h0 := h.ok s _ hx
            obtain ⟨p1, p2, p3, p4, p5⟩ := h0.phase
            have hcle : c ≤ req.num := by obtain ⟨_, _, _, _, _, _, _, g, _⟩ := p1; exact g
            have hav := h.valid _ _ ht
            exact h.sampled hw rfl ht rfl hx p1 p2 p3 p4 (by simp at hcond; omega) (Table.sample_spec hav _ _) (Table.step_grows _ _)
              (fun c hc => by rcases Table.sample_err hc with rfl | rfl <;> simp) (fun l hl => Table.sample_reports hl) (by rw [p5]; rfl) hd
      · rename_i tm cn req d c dl wr got hx
        unfold section_ at hs
        split at hs
        · cases hs
        · rename_i t ht
          simp only [Option.some.injEq] at hs
          subst hs
          have h0 := h.ok s _ hx
          obtain ⟨p1, p2, p3, p4, p5, t0, p6, p7⟩ := h0.phase
          have hav := h.valid _ _ ht
          exact h.sampled hw rfl ht rfl hx p1 p2 p3 p4 p5 (Table.sampleResume_spec hav _ _) (Table.step_grows _ _)
            (fun c hc => by rcases Table.sampleResume_err hc with rfl | rfl <;> simp) (fun l hl => Table.sampleResume_reports hl)
            (by rw [p6]; exact p7) hd
      · cases hs
    | timeout s now =>
      simp only at hs
      split at hs
      · rename_i tm cn req d c dl wr got hx
        split at hs
        · rename_i hpass
          cases hs
          have h0 := h.ok s _ hx
          have hcn := h.cancelled s _ hx
          have hreq : requests s (evs ++ [.timeout s now]) = requests s evs := by rw [requests_snoc]; simp [requests]
          obtain ⟨p1, p2, p3, p4, p5, t0, p6, p7⟩ := h0.phase
          refine h.phase hx (fun s' _ => ⟨rfl, fun _ => rfl, by simp⟩) rfl (by rw [hreq]; exact h0.timeout) ?_ (by rw [cancelled_snoc, ← hcn]; simp)
          rw [hreq]
          refine ⟨p1.served (by simp), p2 ▸ List.prefix_rfl, fun _ => ?_⟩
          simp only at p7
          rw [p7] at hpass
          cases tm with
          | none => simp [deadlineAt, passed] at hpass
          | some o =>
            cases o with
            | none => simp [deadlineAt, passed] at hpass
            | some ms => exact ⟨ms, rfl⟩
        · cases hs
      · cases hs
    | write s ok =>
      simp only at hs
      split at hs
      · rename_i tm cn req d c e es wr got hx
        have h0 := h.ok s _ hx
        have hcn := h.cancelled s _ hx
        have hreq : requests s (evs ++ [.write s ok]) = requests s evs := by rw [requests_snoc]; simp [requests]
        have hcs : callStart s (evs ++ [.write s ok]) = none := by rw [callStart_snoc]; simp [callStep]
        have hap : ∀ s', s' ≠ s → Apart s' (.write s ok) := fun s' hne =>
          ⟨by simp [requests], fun t => by simp [callStep, Ne.symm hne], by simp⟩
        obtain ⟨p1, p2, p3, p4⟩ := h0.phase
        simp only at p2
        split at hs
        · cases hs
          refine h.phase hx hap rfl (by rw [hreq]; exact h0.timeout) ?_ (by rw [cancelled_snoc, ← hcn]; simp)
          rw [hreq, hcs]
          exact afterWrite_ok p1 (by simpa using p2) p3 p4 fun _ => rfl
        · cases hs
          refine h.phase hx hap rfl (by rw [hreq]; exact h0.timeout) ?_ (by rw [cancelled_snoc, ← hcn]; simp)
          rw [hreq]
          exact ⟨p1.served (by simp), ⟨_, p2⟩, by simp⟩
      · cases hs
    | table name op =>
      simp only at hs
      split at hs
      · cases hs
      · rename_i t ht
        cases hs
        have hgrow := Table.step_grows t op
        have hg : TGrow v.tables (v.tables.insert name (t.step op).1) := .insert ht hgrow.log
        refine ⟨fun n t' ht' => ?_, fun s' hs' => ?_, fun s' x' hs' => ?_, fun s' x' hs' => ?_⟩
        · simp only [AMap.get?_insert] at ht'
          split at ht'
          · cases ht'
            exact Table.step_keeps (hop name op rfl) (h.valid _ _ ht)
          · exact h.valid _ _ ht'
        · obtain ⟨f1, f2, f3⟩ := h.fresh _ hs'
          rw [requests_snoc, callStart_snoc, cancelled_snoc, f1, f2]
          exact ⟨rfl, rfl, by simp [f3]⟩
        · have := (h.ok _ _ hs').grow hg
          rw [requests_snoc, callStart_snoc]
          simpa [requests, callStep] using this
        · rw [cancelled_snoc, h.cancelled _ _ hs']
          simp

theorem run_ind {w : Wire} {P : List Event → SyncSampler → Prop} (hstep : ∀ pre v e v', P pre v → v.step w e = some v' → P (pre ++ [e]) v') :
    ∀ (post pre : List Event) (v v' : SyncSampler), P pre v → v.run w post = some v' → P (pre ++ post) v'
  | [], pre, v, v', hp, h => by simp [run] at h; subst h; simpa using hp
  | e :: post, pre, v, v', hp, h => by
    simp only [run] at h
    split at h
    · cases h
    · rename_i v1 h1
      have := run_ind hstep post (pre ++ [e]) v1 v' (hstep pre v e v1 hp h1) h
      simpa using this

/-- The server lives. -/
structure Lives (cfgs : AMap String Config) (v : SyncSampler) : Prop where
  alive : v.dead = false
  tables : ∀ name t, v.tables.get? name = some t → ∃ c, cfgs.get? name = some c ∧ c.Reachable t

theorem Lives.table {cfgs : AMap String Config} {v : SyncSampler} (h : Lives cfgs v) {name : String} {t : Table} {op : Op}
    (ht : v.tables.get? name = some t) (ho : ∀ c, cfgs.get? name = some c → c.Admissible op) :
    (t.step op).2 ≠ .died ∧ Lives cfgs { v with tables := v.tables.insert name (t.step op).1 } := by
  obtain ⟨c, hc, hr⟩ := h.tables _ _ ht
  have hnd : (t.step op).2 ≠ .died := by
    obtain ⟨mvs, _, hr', _⟩ := hr.inv.step op (c.okFor (ho c hc))
    rcases hr' with ⟨h1, _⟩ | ⟨h1, h2, _⟩ | ⟨l, h1, _⟩ | ⟨e, h1, h2, h3, _⟩ <;> rw [h1] <;> simp
  refine ⟨hnd, h.alive, fun name' t' ht' => ?_⟩
  rw [AMap.get?_insert] at ht'
  split at ht'
  · cases ht'
    subst_vars
    exact ⟨c, hc, hr.step (ho c hc)⟩
  · exact h.tables _ _ ht'

theorem Lives.sampled {cfgs : AMap String Config} {w : Wire} {v : SyncSampler} (h : Lives cfgs v) {s : Nat} {x : SampStream} {req : SampleReq}
    {d c : Int} {dl : Duration} {r : Res Table.Reply} (h1 : r ≠ .died) (h2 : r ≠ .ok .done) :
    Lives cfgs (SyncSampler.sampled w v s x req d c dl r) := by
  unfold SyncSampler.sampled
  split
  · exact ⟨h.alive, h.tables⟩
  · exact ⟨h.alive, h.tables⟩
  · exact absurd rfl h2
  · exact ⟨h.alive, h.tables⟩
  · exact absurd rfl h1

theorem sampleLoop_not_done {t : Table} {b : Bool} {n : Nat} {ds : Nat → Draw} : (t.sampleLoop b n ds).2 ≠ .ok .done := by
  unfold Table.sampleLoop
  simp only
  split
  · split <;> simp
  · simp
  · simp

theorem sampleResume_not_done {t : Table} {n : Nat} {ds : Nat → Draw} : (t.step (.sampleResume n ds)).2 ≠ .ok .done := by
  simp only [Table.step, Table.sampleResume]
  split
  · simp
  · simp
  · exact sampleLoop_not_done

theorem sample_not_done {t : Table} {n : Nat} {ds : Nat → Draw} : (t.step (.sample n ds)).2 ≠ .ok .done := by
  simp only [Table.step, Table.sampleBatch]
  split
  · exact sampleLoop_not_done
  · exact sampleResume_not_done

theorem Lives.step {cfgs : AMap String Config} {w : Wire} {v v' : SyncSampler} {e : Event} (h : Lives cfgs v)
    (hop : ∀ name op, e = .table name op → ∀ c, cfgs.get? name = some c → c.Admissible op) (hs : v.step w e = some v') : Lives cfgs v' := by
  unfold SyncSampler.step at hs
  rw [if_neg (by simp [h.alive])] at hs
  cases e with
  | table name op =>
    simp only at hs
    split at hs
    · cases hs
    · rename_i t ht
      cases hs
      obtain ⟨h1, h2⟩ := h.table ht (hop name op rfl)
      exact ⟨by simpa using h1, h2.tables⟩
  | sample s now ds =>
    simp only at hs
    split at hs
    · split at hs
      · cases hs
      · unfold section_ at hs
        split at hs
        · cases hs
        · rename_i t ht
          simp only [Option.some.injEq] at hs
          subst hs
          obtain ⟨h1, h2⟩ := h.table ht (op := .sample _ ds) fun _ _ => trivial
          exact h2.sampled h1 sample_not_done
    · unfold section_ at hs
      split at hs
      · cases hs
      · rename_i t ht
        simp only [Option.some.injEq] at hs
        subst hs
        obtain ⟨h1, h2⟩ := h.table ht (op := .sampleResume _ ds) fun _ _ => trivial
        exact h2.sampled h1 sampleResume_not_done
    · cases hs
  | _ =>
    simp only at hs
    (repeat' split at hs) <;> cases hs <;> exact ⟨h.alive, h.tables⟩

theorem lives_run {cfgs : AMap String Config} {w : Wire} {evs : List Event} {v : SyncSampler}
    (hp : Proper cfgs evs) (hr : (init (newTables cfgs)).run w evs = some v) : Lives cfgs v := by
  have h0 : Lives cfgs (init (newTables cfgs)) := by
    refine ⟨rfl, fun name t ht => ?_⟩
    simp only [init, newTables_get, Option.map_eq_some_iff] at ht
    obtain ⟨c, h1, rfl⟩ := ht
    exact ⟨c, h1, [], by simp, rfl⟩
  refine run_ind (P := fun pre v => (∀ e ∈ pre, e ∈ evs) → Lives cfgs v) ?_ evs [] _ v (fun _ => h0) hr (by simp)
  intro pre v e v' hP hs hall
  refine (hP fun e' he => hall e' (List.mem_append_left _ he)).step ?_ hs
  rintro name op rfl
  exact (hp name op (hall _ (by simp))).2

theorem inv_run {cfgs : AMap String Config} {w : Wire} (hw : ∀ k, (w.content k).key = k) {evs : List Event} {v : SyncSampler}
    (hp : Proper cfgs evs) (hr : (init (newTables cfgs)).run w evs = some v) : Inv w evs v ∧ v.dead = false := by
  have h0 : Lives cfgs (init (newTables cfgs)) := by
    refine ⟨rfl, fun name t ht => ?_⟩
    simp only [init, newTables_get, Option.map_eq_some_iff] at ht
    obtain ⟨c, h1, rfl⟩ := ht
    exact ⟨c, h1, [], by simp, rfl⟩
  have hi : Inv w [] (init (newTables cfgs)) := by
    refine ⟨fun name t ht => ?_, fun s _ => ⟨rfl, rfl, by simp [Cancelled]⟩, fun s x hx => ?_, fun s x hx => ?_⟩
    · simp only [init, newTables_get, Option.map_eq_some_iff] at ht
      obtain ⟨c, h1, rfl⟩ := ht
      intro k it hk
      simp [Config.init, Table.make] at hk
    · simp [init] at hx
    · simp [init] at hx
  have := run_ind (P := fun pre v => (∀ e ∈ pre, e ∈ evs) → Lives cfgs v ∧ Inv w pre v) (w := w) ?_ evs [] _ v (fun _ => ⟨h0, hi⟩) hr (by simp)
  · exact ⟨by simpa using this.2, this.1.alive⟩
  · intro pre v e v' hP hs hall
    obtain ⟨h1, h2⟩ := hP fun e' he => hall e' (List.mem_append_left _ he)
    have h3 := h1.step (by rintro name op rfl; exact (hp name op (hall _ (by simp))).2) hs
    exact ⟨h3, h2.step hw (by rintro name op rfl; exact (hp name op (hall _ (by simp))).1) hs h3.alive⟩

end SyncSampler
end Verif
