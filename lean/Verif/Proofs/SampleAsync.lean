import Verif.Proofs.SampReactor
import Verif.Proofs.WorkerProgress
import Verif.Spec.SampleAsync
/-
Invariant of the sample streams of the asynchronous server.
-/
namespace Verif
open Worker (W Act Req answers live)
open Table (Op)

namespace Worker

theorem log_step {w w' : W} {a : Act} (hs : Worker.step w a = some w') : w.table.log <+: w'.table.log := by
  obtain ⟨_, ht⟩ := tr_of_step hs
  cases ht
  all_goals first
    | exact List.prefix_rfl
    | exact (Table.step_grows _ _).log

theorem close_step {w w' : W} {a : Act} (hs : Worker.step w a = some w') (hc : Op.close ∈ w'.trace) : Op.close ∈ w.trace ∨ a = .close := by
  obtain ⟨_, ht⟩ := tr_of_step hs
  cases ht
  case sectionOk op r _ _ ho =>
    rcases List.mem_append.mp hc with hc | hc
    · exact .inl hc
    · rw [List.mem_singleton] at hc
      subst hc
      cases a <;> simp [Act.op] at ho
      exact .inr rfl
  case sectionErr op r _ _ ho =>
    rcases List.mem_append.mp hc with hc | hc
    · exact .inl hc
    · rw [List.mem_singleton] at hc
      subst hc
      cases a <;> simp [Act.op] at ho
      exact .inr rfl
  case sectionDied op _ _ ho =>
    rcases List.mem_append.mp hc with hc | hc
    · exact .inl hc
    · rw [List.mem_singleton] at hc
      subst hc
      cases a <;> simp [Act.op] at ho
      exact .inr rfl
  all_goals first
    | exact .inl hc
    | exact .inl (by simpa using hc)

theorem close_run {c : Config} {as : List Act} {w : W} (h : run (Worker.init c.init) as = some w) (hc : Op.close ∈ w.trace) : Act.close ∈ as := by
  refine run_ind (fun as w => Op.close ∈ w.trace → Act.close ∈ as) (by simp [Worker.init]) ?_ as w h hc
  intro as w a w' ih hs hc
  rcases close_step hs hc with g | g
  · exact List.mem_append_left _ (ih g)
  · simp [g]

end Worker

namespace AsyncSampler

/-- The requests of a stream that a table has not answered, or the answer has not been delivered. -/
def pendOf (T : AMap String SampTable) (name : String) (s : Nat) : List Req :=
  match T.get? name with
  | none => []
  | some t => t.pend.filter fun q => q.id = reqId s

theorem pendOf_some {T : AMap String SampTable} {name : String} {t : SampTable} (h : T.get? name = some t) (s : Nat) :
    pendOf T name s = t.pend.filter fun q => q.id = reqId s := by simp [pendOf, h]

theorem pendOf_insert (T : AMap String SampTable) (n name : String) (t : SampTable) (s : Nat) :
    pendOf (T.insert n t) name s = if name = n then t.pend.filter (fun q => q.id = reqId s) else pendOf T name s := by
  simp only [pendOf, AMap.get?_insert]
  by_cases h : name = n
  · simp [h]
  · simp [h]

/-- How a stream and the tables fit. -/
structure Link (T : AMap String SampTable) (s : Nat) (r : SampReactor) : Prop where
  mine : ∀ name q, q ∈ pendOf T name s → r.waiting = true ∧ ∃ t, r.task = some t ∧ t.table = name ∧ q.num = t.next.toNat
  one : ∀ name, (pendOf T name s).length ≤ 1
  has : r.gone = false → r.waiting = true → ∃ t q, r.task = some t ∧ q ∈ pendOf T t.table s
  tbl : ∀ t, r.task = some t → T.contains t.table = true

theorem Link.mono {T T' : AMap String SampTable} {s : Nat} {r r' : SampReactor} (h : Link T s r) (hp : ∀ name, (pendOf T' name s).Perm (pendOf T name s))
    (hc : ∀ name, T'.contains name = T.contains name) (h1 : r'.waiting = r.waiting) (h2 : r'.task = r.task) (h3 : r'.gone = false → r.gone = false) :
    Link T' s r' := by
  refine ⟨fun name q hq => ?_, fun name => ?_, fun g1 g2 => ?_, fun t ht => ?_⟩
  · rw [h1, h2]; exact h.mine name q ((hp name).mem_iff.mp hq)
  · rw [(hp name).length_eq]; exact h.one name
  · rw [h1] at g2
    obtain ⟨t, q, k1, k2⟩ := h.has (h3 g1) g2
    exact ⟨t, q, by rw [h2, k1], (hp _).mem_iff.mpr k2⟩
  · rw [hc]; exact h.tbl t (by rw [← h2, ht])

theorem Link.empty {T : AMap String SampTable} {s : Nat} {r : SampReactor} (h : Link T s r) (hw : r.waiting = false) (name : String) : pendOf T name s = [] := by
  refine List.eq_nil_iff_forall_not_mem.mpr fun q hq => ?_
  have := (h.mine name q hq).1
  rw [hw] at this
  cases this

theorem Link.idle {T : AMap String SampTable} {s : Nat} {r : SampReactor} (hp : ∀ name, pendOf T name s = []) (hw : r.waiting = false)
    (ht : ∀ t, r.task = some t → T.contains t.table = true) : Link T s r :=
  ⟨fun name q hq => absurd hq (by rw [hp]; simp), fun name => (by rw [hp]; simp), fun _ g => absurd g (by simp [hw]), ht⟩

/-- The request was made by an earlier event. -/
def AskedOk (evs : List Event) (name : String) (s : Nat) (q : Req) : Prop := ∃ pre e, pre ++ [e] <+: evs ∧ AskNow pre e name s q

/-- A table. -/
structure TInv (cfgs : AMap String Config) (evs : List Event) (name : String) (t : SampTable) : Prop where
  runs : ∃ c as, cfgs.get? name = some c ∧ Worker.run (Worker.init c.init) as = some t.w ∧ (∀ a ∈ as, a.Ok c) ∧
    ∀ a ∈ as, (∃ id n dl, a = .request id n dl) ∨ Event.table name a ∈ evs
  clean : Worker.Clean t.w
  todo : t.todo ⊆ t.w.out
  asked : ∀ q ∈ t.w.asked, ∀ s, q.id = reqId s → AskedOk evs name s q

theorem TInv.served {cfgs : AMap String Config} {evs : List Event} {name : String} {t : SampTable} (h : TInv cfgs evs name t) : Worker.Served t.w := by
  obtain ⟨c, as, _, h2, _, _⟩ := h.runs
  exact Worker.run_inv Worker.Served (fun _ => True) (.init _) (fun _ _ _ h _ hs => h.step hs) (fun _ _ => trivial) h2

theorem TInv.alive {cfgs : AMap String Config} {evs : List Event} {name : String} {t : SampTable} (h : TInv cfgs evs name t) : t.w.dead = false := by
  obtain ⟨c, as, _, h2, h3, _⟩ := h.runs
  exact (Worker.Sound.run h3 h2).fine.alive

theorem TInv.pend_asked {cfgs : AMap String Config} {evs : List Event} {name : String} {t : SampTable} (h : TInv cfgs evs name t) {q : Req}
    (hq : q ∈ t.pend) : q ∈ t.w.asked := by
  have hs := h.served.count q
  rw [← List.count_pos_iff]
  simp only [SampTable.pend, List.mem_append] at hq
  rcases hq with ((hq | hq) | hq) | hq
  · have : q ∈ (answers t.w.out).map fun a => a.1.bare := by
      obtain ⟨a, ha, rfl⟩ := List.mem_map.mp hq
      refine List.mem_map.mpr ⟨a, ?_, rfl⟩
      simp only [answers, List.mem_filterMap] at ha ⊢
      obtain ⟨o, ho, e⟩ := ha
      exact ⟨o, h.todo ho, e⟩
    have := List.count_pos_iff.mpr this
    omega
  · have := List.count_pos_iff.mpr hq; omega
  · have := List.count_pos_iff.mpr hq; omega
  · have := List.count_pos_iff.mpr hq; omega

theorem AskedOk.mono {evs : List Event} {name : String} {s : Nat} {q : Req} (h : AskedOk evs name s q) (e : Event) : AskedOk (evs ++ [e]) name s q := by
  obtain ⟨pre, x, h1, h2⟩ := h
  exact ⟨pre, x, h1.trans (List.prefix_append _ _), h2⟩

theorem TInv.mono {cfgs : AMap String Config} {evs : List Event} {name : String} {t : SampTable} (h : TInv cfgs evs name t) (e : Event) :
    TInv cfgs (evs ++ [e]) name t := by
  obtain ⟨⟨c, as, h1, h2, h3, h4⟩, h5, h6, h7⟩ := h
  exact ⟨⟨c, as, h1, h2, h3, fun a ha => (h4 a ha).imp id (List.mem_append_left _)⟩, h5, h6, fun q hq s hs => (h7 q hq s hs).mono e⟩

/-- A step of the worker or of another caller. -/
theorem TInv.step {cfgs : AMap String Config} {evs : List Event} {name : String} {t : SampTable} (h : TInv cfgs evs name t) {a : Act} {w' : W}
    (hs : Worker.step t.w a = some w') (ho : isOwn a = false) (ha : ∀ c, cfgs.get? name = some c → a.Ok c) :
    TInv cfgs (evs ++ [.table name a]) name ⟨w', t.todo ++ w'.out.drop t.w.out.length, t.calling⟩ := by
  obtain ⟨⟨c, as, h1, h2, h3, h4⟩, h5, h6, h7⟩ := h
  refine ⟨⟨c, as ++ [a], h1, ?_, ?_, ?_⟩, h5.step hs, ?_, ?_⟩
  · rw [Worker.run_append, h2]
    simp [Worker.run, hs]
  · intro x hx
    rcases List.mem_append.mp hx with hx | hx
    · exact h3 x hx
    · rw [List.mem_singleton] at hx; subst hx; exact ha c h1
  · intro x hx
    rcases List.mem_append.mp hx with hx | hx
    · exact (h4 x hx).imp id (List.mem_append_left _)
    · rw [List.mem_singleton] at hx; subst hx; exact .inr (by simp)
  · by_cases hr : ∃ id n dl, a = .request id n dl
    · obtain ⟨id, n, dl, rfl⟩ := hr
      have : w' = Worker.enqueueSample t.w id n dl := by
        unfold Worker.step at hs
        split at hs
        · cases hs
        · simpa using hs.symm
      subst this
      simpa [Worker.enqueueSample, Worker.signalled] using h6
    · obtain ⟨_, l, hl⟩ := Worker.asked_step hs fun id n dl e => hr ⟨id, n, dl, e⟩
      intro o hoo
      rcases List.mem_append.mp hoo with g | g
      · rw [← hl]; exact List.mem_append_left _ (h6 g)
      · exact List.mem_of_mem_drop g
  · intro q hq s hid
    by_cases hr : ∃ id n dl, a = .request id n dl
    · obtain ⟨id, n, dl, rfl⟩ := hr
      have : w' = Worker.enqueueSample t.w id n dl := by
        unfold Worker.step at hs
        split at hs
        · cases hs
        · simpa using hs.symm
      subst this
      simp only [Worker.enqueueSample, Worker.signalled, List.mem_append, List.mem_singleton] at hq
      rcases hq with hq | hq
      · exact (h7 q hq s hid).mono _
      · subst hq
        simp only [isOwn, decide_eq_false_iff_not] at ho
        simp only [reqId] at hid
        omega
    · rw [(Worker.asked_step hs fun id n dl e => hr ⟨id, n, dl, e⟩).1] at hq
      exact (h7 q hq s hid).mono _

theorem TInv.erase {cfgs : AMap String Config} {evs : List Event} {name : String} {t : SampTable} (h : TInv cfgs evs name t) (i : Nat) :
    TInv cfgs evs name { t with todo := t.todo.eraseIdx i } :=
  ⟨h.runs, h.clean, fun _ hx => h.todo (List.mem_of_mem_eraseIdx hx), h.asked⟩

theorem TInv.ask {cfgs : AMap String Config} {evs : List Event} {name : String} {t : SampTable} (h : TInv cfgs evs name t) {s n : Nat} {dl : Option Int}
    (hq : AskedOk evs name s ⟨reqId s, n, dl, []⟩) : TInv cfgs evs name { t with w := Worker.enqueueSample t.w (reqId s) n dl } := by
  have hl := h.alive
  have hs : Worker.step t.w (.request (reqId s) n dl) = some (Worker.enqueueSample t.w (reqId s) n dl) := by
    unfold Worker.step; rw [if_neg (by simp [hl])]
  obtain ⟨⟨c, as, h1, h2, h3, h4⟩, h5, h6, h7⟩ := h
  refine ⟨⟨c, as ++ [.request (reqId s) n dl], h1, ?_, ?_, ?_⟩, h5.step hs, ?_, ?_⟩
  · rw [Worker.run_append, h2]
    simp [Worker.run, hs]
  · intro x hx
    rcases List.mem_append.mp hx with hx | hx
    · exact h3 x hx
    · rw [List.mem_singleton] at hx; subst hx; trivial
  · intro x hx
    rcases List.mem_append.mp hx with hx | hx
    · exact h4 x hx
    · rw [List.mem_singleton] at hx; exact .inl ⟨_, _, _, hx⟩
  · simpa [Worker.enqueueSample, Worker.signalled] using h6
  · intro q hq' s' hid
    simp only [Worker.enqueueSample, Worker.signalled, List.mem_append, List.mem_singleton] at hq'
    rcases hq' with hq' | hq'
    · exact h7 q hq' s' hid
    · subst hq'
      simp only [reqId] at hid
      have : s = s' := by omega
      subst this
      exact hq

/-- The sample has been taken from its table. -/
def Logged (T : AMap String SampTable) (y : String × Sampled) : Prop := ∃ t, T.get? y.1 = some t ∧ ExtEvent.sample y.2.item ∈ t.w.table.log

/-- The tables go on. -/
def Grown (T T' : AMap String SampTable) : Prop :=
  (∀ name, T'.contains name = T.contains name) ∧ ∀ name t, T.get? name = some t → ∃ t', T'.get? name = some t' ∧ t.w.table.log <+: t'.w.table.log

theorem Grown.rfl {T : AMap String SampTable} : Grown T T := ⟨fun _ => _root_.rfl, fun _ t h => ⟨t, h, List.prefix_rfl⟩⟩

theorem Grown.insert {T : AMap String SampTable} {name : String} {t t' : SampTable} (h : T.get? name = some t) (g : t.w.table.log <+: t'.w.table.log) :
    Grown T (T.insert name t') := by
  refine ⟨fun n => ?_, fun n x hx => ?_⟩
  · simp only [AMap.contains, AMap.get?_insert]
    split
    · subst_vars; rw [h]; simp
    · simp
  · rw [AMap.get?_insert]
    split
    · subst_vars
      rw [h] at hx
      cases hx
      exact ⟨t', _root_.rfl, g⟩
    · exact ⟨x, hx, List.prefix_rfl⟩

theorem Grown.trans {T T' T'' : AMap String SampTable} (h : Grown T T') (h' : Grown T' T'') : Grown T T'' := by
  refine ⟨fun n => (h'.1 n).trans (h.1 n), fun n t ht => ?_⟩
  obtain ⟨t1, h1, h2⟩ := h.2 n t ht
  obtain ⟨t2, h3, h4⟩ := h'.2 n t1 h1
  exact ⟨t2, h3, h2.trans h4⟩

theorem Logged.mono {T T' : AMap String SampTable} {y : String × Sampled} (h : Logged T y) (g : Grown T T') : Logged T' y := by
  obtain ⟨t, h1, h2⟩ := h
  obtain ⟨t', h3, h4⟩ := g.2 _ _ h1
  exact ⟨t', h3, h4.subset h2⟩

theorem requests_append (s : Nat) (a b : List Event) : requests s (a ++ b) = requests s a ++ requests s b := by
  unfold requests; exact List.filterMap_append

theorem requests_snoc (s : Nat) (evs : List Event) (e : Event) : requests s (evs ++ [e]) = requests s evs ++ requests s [e] := by
  simp [requests]

theorem TimedOut.mono {s : Nat} {evs : List Event} (h : TimedOut s evs) (e : Event) : TimedOut s (evs ++ [e]) := by
  obtain ⟨q, h1, ms, h2, h3, x, h4, st, now, d, h5, h6, h7⟩ := h
  exact ⟨q, by rw [requests_snoc]; exact List.mem_append_left _ h1, ms, h2, h3, x, List.mem_append_left _ h4, st, now, d, h5, List.mem_append_left _ h6, h7⟩

theorem Why.mono {cfgs : AMap String Config} {s : Nat} {evs : List Event} {c : Code} (h : Why cfgs s evs c) (e : Event) : Why cfgs s (evs ++ [e]) c := by
  have hq : ∀ q, q ∈ requests s evs → q ∈ requests s (evs ++ [e]) := fun q hq => by rw [requests_snoc]; exact List.mem_append_left _ hq
  cases c <;> simp only [Why] at h ⊢
  · obtain ⟨q, h1, h2⟩ := h; exact ⟨q, hq q h1, List.mem_append_left _ h2⟩
  · obtain ⟨q, h1, h2⟩ := h; exact ⟨q, hq q h1, h2⟩
  · exact h.mono e
  · obtain ⟨q, h1, h2⟩ := h; exact ⟨q, hq q h1, h2⟩
  · exact List.mem_append_left _ h

/-- A stream. -/
structure SOk (w : Wire) (cfgs : AMap String Config) (evs : List Event) (T : AMap String SampTable) (s : Nat) (r : SampReactor) : Prop where
  inv : RInv w (requests s evs) r
  canc : r.cancelled = true ↔ Cancelled s evs
  why : ∀ c, r.finished = some (some c) → Why cfgs s evs c
  logged : ∀ y ∈ r.got, Logged T y

/-- The server. -/
structure AInv (w : Wire) (cfgs : AMap String Config) (evs : List Event) (v : AsyncSampler) : Prop where
  alive : v.dead = false
  dom : ∀ name, v.tables.contains name = cfgs.contains name
  tabs : ∀ name t, v.tables.get? name = some t → TInv cfgs evs name t
  fresh : ∀ s, v.streams.get? s = none → requests s evs = [] ∧ ¬ Cancelled s evs ∧ ∀ name, pendOf v.tables name s = []
  ok : ∀ s r, v.streams.get? s = some r → SOk w cfgs evs v.tables s r
  link : ∀ s r, v.streams.get? s = some r → Link v.tables s r

/-- The event brings no request of the stream and does not cancel it. -/
structure Apart (s : Nat) (e : Event) : Prop where
  req : requests s [e] = []
  canc : e ≠ .cancel s

theorem Apart.requests {s : Nat} {e : Event} (h : Apart s e) (evs : List Event) : AsyncSampler.requests s (evs ++ [e]) = AsyncSampler.requests s evs := by
  rw [requests_snoc, h.req, List.append_nil]

theorem Apart.cancelled {s : Nat} {e : Event} (h : Apart s e) (evs : List Event) : Cancelled s (evs ++ [e]) ↔ Cancelled s evs := by
  simp [Cancelled, Ne.symm h.canc]

theorem SOk.mono {w : Wire} {cfgs : AMap String Config} {evs : List Event} {T T' : AMap String SampTable} {s : Nat} {r : SampReactor}
    (h : SOk w cfgs evs T s r) {e : Event} (ha : Apart s e) (hg : Grown T T') : SOk w cfgs (evs ++ [e]) T' s r :=
  ⟨by rw [ha.requests]; exact h.inv, by rw [ha.cancelled]; exact h.canc, fun c hc => (h.why c hc).mono e, fun y hy => (h.logged y hy).mono hg⟩

/-- Tables and one stream change. -/
theorem AInv.put {w : Wire} {cfgs : AMap String Config} {evs : List Event} {v : AsyncSampler} (h : AInv w cfgs evs v) {e : Event} {s : Nat}
    {T : AMap String SampTable} {r' : SampReactor} (hT : ∀ name t, T.get? name = some t → TInv cfgs (evs ++ [e]) name t) (hg : Grown v.tables T)
    (ha : ∀ s', s' ≠ s → Apart s' e) (hp : ∀ s', s' ≠ s → ∀ name, (pendOf T name s').Perm (pendOf v.tables name s'))
    (hr : SOk w cfgs (evs ++ [e]) T s r') (hl : Link T s r') :
    AInv w cfgs (evs ++ [e]) ⟨T, v.streams.insert s r', v.dead⟩ := by
  refine ⟨h.alive, fun n => (hg.1 n).trans (h.dom n), hT, fun s' hs => ?_, fun s' r hs => ?_, fun s' r hs => ?_⟩
  · simp only [AMap.get?_insert] at hs
    split at hs
    · cases hs
    · rename_i hne
      obtain ⟨f1, f2, f3⟩ := h.fresh s' hs
      refine ⟨by rw [(ha s' hne).requests, f1], by rw [(ha s' hne).cancelled]; exact f2, fun name => ?_⟩
      have := hp s' hne name
      rw [f3] at this
      exact this.eq_nil
  · simp only [AMap.get?_insert] at hs
    split at hs
    · cases hs; subst_vars; exact hr
    · rename_i hne
      exact (h.ok s' r hs).mono (ha s' hne) hg
  · simp only [AMap.get?_insert] at hs
    split at hs
    · cases hs; subst_vars; exact hl
    · rename_i hne
      exact (h.link s' r hs).mono (hp s' hne) hg.1 rfl rfl id

/-- Only tables change. -/
theorem AInv.same {w : Wire} {cfgs : AMap String Config} {evs : List Event} {v : AsyncSampler} (h : AInv w cfgs evs v) {e : Event}
    {T : AMap String SampTable} (hT : ∀ name t, T.get? name = some t → TInv cfgs (evs ++ [e]) name t) (hg : Grown v.tables T)
    (ha : ∀ s', Apart s' e) (hp : ∀ s', (∀ name, (pendOf T name s').Perm (pendOf v.tables name s')) ∨
      ∃ r, v.streams.get? s' = some r ∧ Link T s' r) :
    AInv w cfgs (evs ++ [e]) ⟨T, v.streams, v.dead⟩ := by
  refine ⟨h.alive, fun n => (hg.1 n).trans (h.dom n), hT, fun s' hs => ?_, fun s' r hs => ?_, fun s' r hs => ?_⟩
  · obtain ⟨f1, f2, f3⟩ := h.fresh s' hs
    refine ⟨by rw [(ha s').requests, f1], by rw [(ha s').cancelled]; exact f2, fun name => ?_⟩
    rcases hp s' with hp | ⟨r, hr, _⟩
    · have := hp name
      rw [f3] at this
      exact this.eq_nil
    · rw [hs] at hr; cases hr
  · exact (h.ok s' r hs).mono (ha s') hg
  · rcases hp s' with hp | ⟨r1, hr, hl⟩
    · exact (h.link s' r hs).mono hp hg.1 rfl rfl id
    · rw [hs] at hr; cases hr; exact hl

/-- A stream ends its section, maybe with a request for samples. -/
theorem AInv.putAsk {w : Wire} {cfgs : AMap String Config} {evs : List Event} {v : AsyncSampler} (h : AInv w cfgs evs v) {e : Event} {s : Nat}
    {T : AMap String SampTable} {r' : SampReactor} {a : Option Ask} {now : Int} {before : Bool}
    (hT : ∀ name t, T.get? name = some t → TInv cfgs (evs ++ [e]) name t) (hg : Grown v.tables T)
    (ha : ∀ s', s' ≠ s → Apart s' e) (hp : ∀ s', s' ≠ s → ∀ name, (pendOf T name s').Perm (pendOf v.tables name s'))
    (hr : SOk w cfgs (evs ++ [e]) T s r') (hk : SampReactor.AskOk before r' a) (ht : ∀ t, r'.task = some t → T.contains t.table = true)
    (h0 : before = false → ∀ name, pendOf T name s = []) (h1 : before = true → a = none → Link T s r')
    (hgone : ∀ x, a = some x → r'.gone = false) (htime : ∀ x, a = some x → askTime s x.table e = some now) :
    AInv w cfgs (evs ++ [e]) (AsyncSampler.putAsk ⟨T, v.streams, v.dead⟩ s now (r', a)) := by
  cases a with
  | none =>
    refine h.put hT hg ha hp hr ?_
    cases hb : before with
    | true => exact h1 hb rfl
    | false => exact Link.idle (h0 hb) (by rw [← hb]; exact hk) ht
  | some x =>
    obtain ⟨k1, k2, t, k3, k4, rfl⟩ := hk
    have hc := ht t k3
    simp only [AMap.contains, Option.isSome_iff_exists] at hc
    obtain ⟨tb, htb⟩ := hc
    simp only [AsyncSampler.putAsk, AsyncSampler.put, ask, htb]
    have hpend : ∀ s' name, pendOf (T.insert t.table { tb with w := Worker.enqueueSample tb.w (reqId s) t.next.toNat (deadlineAt now t.timeout) }) name s' =
        pendOf T name s' ++ if name = t.table ∧ s' = s then [⟨reqId s, t.next.toNat, deadlineAt now t.timeout, []⟩] else [] := by
      intro s' name
      rw [pendOf_insert]
      by_cases hn : name = t.table
      · subst hn
        rw [if_pos rfl, SampTable.pend_ask, pendOf_some htb, List.filter_append]
        congr 1
        by_cases hs : s' = s
        · subst hs; simp
        · have : reqId s ≠ reqId s' := by simp only [reqId]; omega
          simp [hs, this]
      · rw [if_neg hn]; simp [hn]
    have hasked : AskedOk (evs ++ [e]) t.table s ⟨reqId s, t.next.toNat, deadlineAt now t.timeout, []⟩ := by
      obtain ⟨rs, req, more, g1, _, g3, g4, g5, g6, g7, g8, g9⟩ := hr.inv.task t k3
      have hpos := SampReactor.TaskOk.pos (hr.inv.task t k3)
      refine ⟨evs, e, List.prefix_rfl, req, by rw [g1]; simp, g3, g5.symm, ?_, ?_, fun hf => ?_, now, htime _ rfl, by rw [g4]⟩
      · simp only; omega
      · simp only [SampTask.next] at k4 ⊢; omega
      · have := g8 hf
        simp only [SampTask.next] at k4 ⊢; omega
    have hg' : Grown T (T.insert t.table { tb with w := Worker.enqueueSample tb.w (reqId s) t.next.toNat (deadlineAt now t.timeout) }) :=
      Grown.insert htb List.prefix_rfl
    refine h.put (fun name t' h' => ?_) (hg.trans hg') ha (fun s' hne name => ?_) ⟨hr.inv, hr.canc, hr.why, fun y hy => (hr.logged y hy).mono hg'⟩ ?_
    · rw [AMap.get?_insert] at h'
      split at h'
      · cases h'; subst_vars; exact (hT _ _ htb).ask hasked
      · exact hT _ _ h'
    · rw [hpend]; simp only [hne, and_false, if_false, List.append_nil]; exact hp s' hne name
    · refine ⟨fun name q hq => ?_, fun name => ?_, fun _ _ => ⟨t, ⟨reqId s, t.next.toNat, deadlineAt now t.timeout, []⟩, k3, ?_⟩, fun t' ht' => ?_⟩
      · rw [hpend, h0 k1, List.nil_append] at hq
        split at hq
        · rename_i hn
          rw [List.mem_singleton] at hq
          subst hq
          exact ⟨k2, t, k3, hn.1.symm, rfl⟩
        · cases hq
      · rw [hpend, h0 k1, List.nil_append]
        split <;> simp
      · rw [hpend]; simp
      · rw [hg'.1]; exact ht t' ht'

/-- The stream ends its section without a request for samples. -/
theorem AInv.set {w : Wire} {cfgs : AMap String Config} {evs : List Event} {v : AsyncSampler} (h : AInv w cfgs evs v) {e : Event} {s : Nat}
    {r r' : SampReactor} (hs : v.streams.get? s = some r) (ha : ∀ s', s' ≠ s → Apart s' e)
    (hr : RInv w (requests s (evs ++ [e])) r') (hc : r'.cancelled = true ↔ Cancelled s (evs ++ [e]))
    (hf : ∀ c, r'.finished = some (some c) → r.finished = some (some c) ∨ Why cfgs s (evs ++ [e]) c)
    (h1 : r'.waiting = r.waiting) (h2 : r'.task = r.task) (h3 : r'.gone = false → r.gone = false) (h4 : r'.got = r.got) :
    AInv w cfgs (evs ++ [e]) (v.put s (.ok r')) := by
  have h0 := h.ok s r hs
  refine h.put (fun n t ht => (h.tabs n t ht).mono e) Grown.rfl ha (fun _ _ _ => .refl _) ⟨hr, hc, fun c g => ?_, fun y hy => h0.logged y (by rw [← h4]; exact hy)⟩
    ((h.link s r hs).mono (fun _ => .refl _) (fun _ => rfl) h1 h2 h3)
  rcases hf c g with g | g
  · exact (h0.why c g).mono e
  · exact g

theorem apart_stream {s : Nat} {e : Event} (h : requests s [e] = []) (h' : e ≠ .cancel s) : Apart s e := ⟨h, h'⟩

theorem cancelled_of {w : Wire} {cfgs : AMap String Config} {evs : List Event} {T : AMap String SampTable} {s : Nat} {r r' : SampReactor}
    (h : SOk w cfgs evs T s r) {e : Event} (hc : r'.cancelled = r.cancelled) (he : e ≠ .cancel s) : r'.cancelled = true ↔ Cancelled s (evs ++ [e]) := by
  rw [hc, h.canc]
  simp [Cancelled, Ne.symm he]

theorem perm_filter_cons {l l' : List Req} {q : Req} {s : Nat} (h : (q :: l').Perm l) :
    ((if q.id = reqId s then [q] else []) ++ l'.filter fun q => q.id = reqId s).Perm (l.filter fun q => q.id = reqId s) := by
  have := h.filter fun q => decide (q.id = reqId s)
  rw [List.filter_cons] at this
  split at this
  · rename_i g
    simp only [decide_eq_true_eq] at g
    rw [if_pos g]; exact this
  · rename_i g
    simp only [decide_eq_true_eq] at g
    rw [if_neg g]; exact this

/-- A request is read. -/
theorem AInv.read {w : Wire} (hw : ∀ k, (w.content k).key = k) {cfgs : AMap String Config} {evs : List Event} {v : AsyncSampler} (h : AInv w cfgs evs v)
    {s : Nat} {r : SampReactor} (hs : v.streams.get? s = some r) (hr : r.reading = true) (req : Option SampleReq) (now : Int) :
    AInv w cfgs (evs ++ [.read s req now]) (v.onRead s r req now) := by
  have h0 := h.ok s r hs
  have ha : ∀ s', s' ≠ s → Apart s' (.read s req now) := fun s' hne => ⟨by simp [requests, Ne.symm hne], by simp⟩
  have hreq : requests s (evs ++ [.read s req now]) = requests s evs ++ req.toList := by
    rw [requests_snoc]; cases req <;> simp [requests]
  have hcanc : ∀ r' : SampReactor, r'.cancelled = r.cancelled → (r'.cancelled = true ↔ Cancelled s (evs ++ [.read s req now])) :=
    fun r' g => cancelled_of h0 g (by simp)
  unfold onRead
  simp only
  cases req with
  | none =>
    simp only [Option.toList_none, List.append_nil] at hreq
    simp only
    obtain ⟨r', e1, e2, e3, e4, e5, e6, e7, e8⟩ := SampReactor.readEnd_ok (reqs' := requests s evs) hw h0.inv hr (.inl rfl)
    rw [e1]
    refine h.set hs ha (by rw [hreq]; exact e2) (hcanc _ e6) (fun c g => ?_) e3 e4 (fun g => by rw [← e5]; exact g) e7
    rcases e8 with e8 | e8
    · exact .inl (e8 ▸ g)
    · rw [e8] at g; cases g
  | some q =>
    simp only [Option.toList_some] at hreq
    have hmem : q ∈ requests s (evs ++ [.read s (some q) now]) := by rw [hreq]; simp
    simp only
    by_cases hf : r.finished.isSome = true
    · rw [if_pos hf]
      obtain ⟨r', e1, e2, e3, e4, e5, e6, e7, e8⟩ := SampReactor.readEnd_ok (reqs' := requests s evs ++ [q]) hw h0.inv hr
        (.inr ⟨by intro e; simp [e] at hf, q, rfl⟩)
      rw [e1]
      refine h.set hs ha (by rw [hreq]; exact e2) (hcanc _ e6) (fun c g => ?_) e3 e4 (fun g => by rw [← e5]; exact g) e7
      rcases e8 with e8 | e8
      · exact .inl (e8 ▸ g)
      · rw [e8] at g; cases g
    · rw [if_neg hf]
      have hf' : r.finished = none := by simpa using hf
      have hfail : ∀ c, Why cfgs s (evs ++ [.read s (some q) now]) c →
          AInv w cfgs (evs ++ [.read s (some q) now]) (v.put s (({ r with reading := false } : SampReactor).setFinished (some c))) := by
        intro c hc
        obtain ⟨r', e1, e2, e3, e4, e5, e6, e7, e8, _⟩ := SampReactor.fail_ok h0.inv.toRInv0 hf' c (.inr ⟨q, rfl⟩)
        have e1' : ({ r with reading := false } : SampReactor).setFinished (some c) = .ok { r' with reading := false } := by
          unfold SampReactor.setFinished at e1 ⊢
          simp only [hf', Option.isSome_none, reduceCtorEq, and_false, or_self, Bool.false_eq_true, if_false, Res.ok.injEq] at e1 ⊢
          rw [← e1]
        rw [e1']
        have e2' : RInv w (requests s evs ++ [q]) { r' with reading := false } := by
          have hne : r'.finished ≠ none := by rw [e3]; simp
          exact ⟨⟨e2.canc, e2.wr, fun g => ⟨(e2.gone g).1, rfl, (e2.gone g).2.2⟩, e2.noTask, e2.task, by simp, e2.res, e2.wait,
            fun g1 g2 => ⟨rfl, (e2.still g1 g2).2⟩, e2.ok, fun g => absurd g hne, e2.inv, e2.sent, e2.items⟩, e2.busy⟩
        refine h.set hs ha (by rw [hreq]; exact e2') (hcanc _ e7) (fun c' g => .inr ?_) e4 e5 (fun g => by rw [← e6]; exact g) e8
        have g : r'.finished = some (some c') := g
        rw [e3] at g
        cases g
        exact hc
      unfold SampReactor.process
      by_cases hv : q.valid = true
      · rw [if_pos hv]
        cases ht : v.tables.get? q.table with
        | none =>
          simp only [Option.map_none]
          exact hfail _ ⟨q, hmem, by rw [← h.dom]; simp [AMap.contains, ht]⟩
        | some t =>
          simp only [Option.map_some]
          obtain ⟨r', a, e1, e2, e3, e4, e5, e6, e7, e8, _⟩ := SampReactor.request_ok h0.inv hr hf' hv (defaultBatch_pos t.w.table)
          rw [e1]
          have hpend : ∀ name, pendOf v.tables name s = [] := (h.link s r hs).empty (h0.inv.read hr).1
          have hgone : r.gone = false := by
            cases hx : r.gone with
            | false => rfl
            | true => have := (h0.inv.gone hx).2.1; rw [hr] at this; cases this
          refine AInv.putAsk h (fun n t ht => (h.tabs n t ht).mono _) Grown.rfl ha (fun _ _ _ => .refl _)
            ⟨by rw [hreq]; exact e2, hcanc _ e5, fun c g => ?_, fun y hy => h0.logged y (by rw [← e6]; exact hy)⟩ e3 (fun t' ht' => ?_)
            (fun _ => hpend) (fun g => by cases g) (fun _ _ => by rw [e4]; exact hgone) (fun x _ => by simp [askTime])
          · rw [e7, hf'] at g; cases g
          · rw [e8] at ht'
            cases ht'
            simp [AMap.contains, ht]
      · rw [if_neg hv]
        exact hfail _ ⟨q, hmem, by simpa using hv⟩

/-- An answer is delivered. -/
theorem AInv.deliver {w : Wire} (hw : ∀ k, (w.content k).key = k) {cfgs : AMap String Config} {evs : List Event} {v : AsyncSampler} (h : AInv w cfgs evs v)
    {name : String} {i : Nat} {now : Int} {t : SampTable} (ht : v.tables.get? name = some t) {o : Worker.Out} (ho : t.todo[i]? = some o) :
    AInv w cfgs (evs ++ [.deliver name i now])
      (AsyncSampler.deliver w { v with tables := v.tables.insert name { t with todo := t.todo.eraseIdx i } } now o) := by
  have ha : ∀ s', Apart s' (.deliver name i now) := fun s' => ⟨by simp [requests], by simp⟩
  have hg : Grown v.tables (v.tables.insert name { t with todo := t.todo.eraseIdx i }) := Grown.insert ht List.prefix_rfl
  have hT : ∀ n x, (v.tables.insert name { t with todo := t.todo.eraseIdx i }).get? n = some x → TInv cfgs (evs ++ [.deliver name i now]) n x := by
    intro n x hx
    rw [AMap.get?_insert] at hx
    split at hx
    · cases hx; subst_vars; exact ((h.tabs _ _ ht).erase i).mono _
    · exact (h.tabs _ _ hx).mono _
  have hpd := SampTable.pend_deliver ho
  cases o with
  | notify cb st =>
    refine h.same hT hg ha fun s' => .inl fun n => ?_
    rw [pendOf_insert]
    split
    · subst_vars
      rw [pendOf_some ht]
      exact (by simpa [answers] using hpd : List.Perm _ _).filter _
    · exact .refl _
  | answer q st =>
    have hpd' : (q.bare :: SampTable.pend { t with todo := t.todo.eraseIdx i }).Perm t.pend := by simpa [answers] using hpd
    have hsub : ∀ s' n, ((if n = name ∧ q.id = reqId s' then [q.bare] else []) ++
        pendOf (v.tables.insert name { t with todo := t.todo.eraseIdx i }) n s').Perm (pendOf v.tables n s') := by
      intro s' n
      rw [pendOf_insert]
      by_cases hn : n = name
      · subst hn
        rw [if_pos rfl, pendOf_some ht]
        have := perm_filter_cons (s := s') hpd'
        have hid : q.bare.id = q.id := rfl
        rw [hid] at this
        by_cases hqs : q.id = reqId s'
        · rw [if_pos hqs] at this
          rw [if_pos ⟨rfl, hqs⟩]; exact this
        · rw [if_neg hqs] at this
          rw [if_neg fun g => hqs g.2]; exact this
      · simp [hn]
    have hno : ∀ s', q.id ≠ reqId s' → ∀ n, (pendOf (v.tables.insert name { t with todo := t.todo.eraseIdx i }) n s').Perm (pendOf v.tables n s') := by
      intro s' hne n
      simpa [hne] using hsub s' n
    unfold AsyncSampler.deliver
    simp only
    by_cases hid : q.id % 2 = 0
    · rw [if_pos hid]
      have hq : q.id = reqId (q.id / 2) := by simp only [reqId]; omega
      have hmem : q.bare ∈ pendOf v.tables name (q.id / 2) := by
        refine (hsub (q.id / 2) name).mem_iff.mp ?_
        rw [if_pos ⟨rfl, hq⟩]
        simp
      have hne : ∀ s', s' ≠ q.id / 2 → q.id ≠ reqId s' := by intro s' g; simp only [reqId]; omega
      cases hs : v.streams.get? (q.id / 2) with
      | none => rw [(h.fresh _ hs).2.2] at hmem; cases hmem
      | some r =>
        simp only
        have h0 := h.ok _ r hs
        have hl := h.link _ r hs
        obtain ⟨m1, tk, m2, m3, m4⟩ := hl.mine _ _ hmem
        have hempty : ∀ n, pendOf (v.tables.insert name { t with todo := t.todo.eraseIdx i }) n (q.id / 2) = [] := by
          intro n
          by_cases hn : n = name
          · have h1 := (hsub (q.id / 2) n).length_eq
            have h2 := hl.one n
            rw [if_pos ⟨hn, hq⟩] at h1
            simp only [List.length_append, List.length_singleton] at h1
            exact List.length_eq_zero_iff.mp (by omega)
          · refine List.eq_nil_iff_forall_not_mem.mpr fun x hx => ?_
            have hx' := (hsub (q.id / 2) n).mem_iff.mp (List.mem_append_right _ hx)
            obtain ⟨_, t2, n2, n3, _⟩ := hl.mine _ _ hx'
            rw [m2] at n2
            cases n2
            exact hn (n3.symm.trans m3)
        by_cases hgone : r.gone = true
        · rw [if_pos hgone]
          refine h.same hT hg ha fun s' => ?_
          by_cases hss : s' = q.id / 2
          · subst hss
            refine .inr ⟨r, hs, fun n x hx => ?_, fun n => ?_, fun g => ?_, fun t' ht' => ?_⟩
            · rw [hempty] at hx; cases hx
            · rw [hempty]; simp
            · rw [hgone] at g; cases g
            · rw [hg.1]; exact hl.tbl t' ht'
          · exact .inl (hno s' (hne s' hss))
        · rw [if_neg hgone]
          have hti := h.tabs _ _ ht
          have hans : (q, st) ∈ answers t.w.out := by
            have : Worker.Out.answer q st ∈ t.w.out := hti.todo (List.mem_of_getElem? ho)
            simp only [answers, List.mem_filterMap]
            exact ⟨_, this, rfl⟩
          have hok := hti.served.ok q st hans
          have hpos : 1 ≤ tk.next := by
            have h1 := SampReactor.TaskOk.pos (h0.inv.task tk m2)
            have h2 := h0.inv.wait m1
            have : tk.next ≠ 0 := fun e => h2 ((SampReactor.idle_iff m2).mpr e)
            omega
          have hnum : q.num = tk.next.toNat := m4
          have hhon : ∀ y ∈ q.samples, Worker.Honest t.w.table y := by
            refine hti.clean.samples q ?_
            simp only [Worker.W.reqs, List.mem_append, List.mem_map]
            exact .inl (.inl (.inl ⟨_, hans, rfl⟩))
          obtain ⟨r', a, e1, e2, e3, e4, e5, e6, e7, e8⟩ := SampReactor.onAnswer_ok hw h0.inv (by simpa using hgone) m1 m2 (samples := q.samples) (st := st)
            (fun e => by
              rcases hok with ⟨_, g⟩ | ⟨g, _⟩
              · rw [g]; simp only [Req.want]; omega
              · rcases g with g | ⟨g, _⟩ <;> rw [g] at e <;> cases e) (fun y hy => (hhon y hy).1)
          rw [e1]
          have hreq : requests (q.id / 2) (evs ++ [.deliver name i now]) = requests (q.id / 2) evs := (ha _).requests evs
          refine AInv.putAsk h hT hg (fun s' _ => ha s') (fun s' g => hno s' (hne s' g))
            ⟨by rw [hreq]; exact e2, cancelled_of h0 e5 (by simp), fun c g => ?_, fun y hy => ?_⟩ e3 (fun t' ht' => ?_) (fun _ => hempty) (fun g => by cases g)
            (fun _ _ => by rw [e4]; simpa using hgone) (fun x hx => ?_)
          · rcases e7 with e7 | ⟨c', e9, e10⟩
            · exact (h0.why c (by rw [← e7]; exact g)).mono _
            · rw [e10] at g
              cases g
              refine Why.mono ?_ _
              have hmem' : q.bare ∈ t.pend := by
                rw [pendOf_some ht] at hmem
                exact (List.mem_filter.mp hmem).1
              obtain ⟨pre, ev, hpre, req, k1, k2, k3, k4, k5, k6, start, k7, k8⟩ := hti.asked q.bare (hti.pend_asked hmem') (q.id / 2) hq
              have hreq' : req ∈ requests (q.id / 2) evs := by
                obtain ⟨post, rfl⟩ := hpre
                rw [requests_append]
                exact List.mem_append_left _ k1
              obtain ⟨cf, as, r1, r2, r3, r4⟩ := hti.runs
              rcases hok with ⟨g, _⟩ | ⟨g | ⟨g, gc⟩, _⟩
              · rw [g] at e9; cases e9
              · rw [g] at e9
                cases e9
                obtain ⟨dl, nw, d, q1, q2, q3⟩ := (Worker.run_ind Worker.Timely (.init _) (fun _ _ _ _ h hs => h.step hs) as t.w r2).out q (g ▸ hans)
                have k8 : q.deadline = deadlineAt start req.asyncTimeout := k8
                rw [q1] at k8
                unfold SampleReq.asyncTimeout at k8
                cases hms : req.timeout with
                | none => simp [hms, deadlineAt] at k8
                | some ms =>
                  simp only [hms] at k8
                  by_cases hpm : 0 < ms
                  · rw [if_pos hpm] at k8
                    simp only [deadlineAt, millis, Option.some.injEq] at k8
                    refine ⟨req, hreq', ms, hms, hpm, ev, hpre.subset (by simp), start, nw, d, by rw [k3]; exact k7, ?_, by omega⟩
                    rw [k3]
                    rcases r4 _ q2 with ⟨_, _, _, hh⟩ | hh
                    · cases hh
                    · exact hh
                  · rw [if_neg hpm] at k8
                    simp [deadlineAt] at k8
              · rw [g] at e9
                cases e9
                have hcl := Worker.close_run r2 ((Worker.run_inv (Worker.Seq cf.init) (fun _ => True) (.init rfl) (fun _ _ _ h _ hs => h.step hs)
                  (fun _ _ => trivial) r2).seen gc)
                refine ⟨req, hreq', ?_⟩
                rw [k3]
                rcases r4 _ hcl with ⟨_, _, _, hh⟩ | hh
                · cases hh
                · exact hh
          · rw [e6] at hy
            split at hy
            · rcases List.mem_append.mp hy with hy | hy
              · exact (h0.logged y hy).mono hg
              · obtain ⟨z, hz, rfl⟩ := List.mem_map.mp hy
                refine Logged.mono (T := v.tables) ⟨t, ?_, (hhon z hz).2⟩ hg
                rw [m3]; exact ht
            · exact (h0.logged y hy).mono hg
          · rw [hg.1, e8 t' ht']; exact hl.tbl tk m2
          · subst hx
            obtain ⟨_, _, t', ht', _, rfl⟩ := e3
            simp [askTime, e8 t' ht', m3]
    · rw [if_neg hid]
      refine h.same hT hg ha fun s' => .inl (hno s' ?_)
      simp only [reqId]
      omega

/-- One step. -/
theorem AInv.step {w : Wire} (hw : ∀ k, (w.content k).key = k) {cfgs : AMap String Config} {evs : List Event} {v v' : AsyncSampler} {e : Event}
    (h : AInv w cfgs evs v) (hp : Proper cfgs [e]) (hs : v.step w e = some v') : AInv w cfgs (evs ++ [e]) v' := by
  unfold AsyncSampler.step at hs
  rw [if_neg (by simp [h.alive])] at hs
  have hcanc : ∀ {s : Nat} {r r' : SampReactor}, v.streams.get? s = some r → r'.cancelled = r.cancelled → e ≠ .cancel s →
      (r'.cancelled = true ↔ Cancelled s (evs ++ [e])) := fun hs hc he => cancelled_of (h.ok _ _ hs) hc he
  cases e with
  | start s =>
    simp only at hs
    split at hs
    · cases hs
    · rename_i hc
      cases hs
      have hn : v.streams.get? s = none := by simpa [AMap.contains] using hc
      obtain ⟨f1, f2, f3⟩ := h.fresh s hn
      have ha : ∀ s', Apart s' (.start s) := fun s' => ⟨by simp [requests], by simp⟩
      refine h.put (fun n t ht => (h.tabs n t ht).mono _) Grown.rfl (fun s' _ => ha s') (fun _ _ _ => .refl _)
        ⟨by rw [(ha s).requests, f1]; exact SampReactor.make_ok, ?_, by simp [SampReactor.make], by simp [SampReactor.make]⟩
        (Link.idle f3 rfl (by simp [SampReactor.make]))
      rw [(ha s).cancelled]
      simp [SampReactor.make, f2]
  | read s req now =>
    simp only at hs
    split at hs
    · cases hs
    · rename_i r hr
      split at hs
      · rename_i hrd
        cases hs
        exact h.read hw hr hrd req now
      · cases hs
  | write s ok =>
    simp only at hs
    split at hs
    · cases hs
    · rename_i r hr
      split at hs
      · rename_i hwr
        cases hs
        have ha : ∀ s', Apart s' (.write s ok) := fun s' => ⟨by simp [requests], by simp⟩
        have h0 := h.ok s r hr
        obtain ⟨r', e1, e2, e3, e4, e5, e6, e7, e8⟩ := SampReactor.onWrite_ok hw h0.inv hwr ok
        rw [e1]
        refine h.set hr (fun s' _ => ha s') (by rw [(ha s).requests]; exact e2) (hcanc hr e6 (by simp)) (fun c g => ?_) e3 e4
          (fun g => by rw [← e5]; exact g) e7
        rcases e8 with e8 | e8 | ⟨e8, e9⟩
        · exact .inl (e8 ▸ g)
        · rw [e8] at g; cases g
        · rw [e9] at g
          cases g
          refine .inr ?_
          rw [e8]
          simp [Why]
      · cases hs
  | more s now =>
    simp only at hs
    split at hs
    · cases hs
    · rename_i r hr
      split at hs
      · cases hs
      · rename_i haf
        cases hs
        have ha : ∀ s', Apart s' (.more s now) := fun s' => ⟨by simp [requests], by simp⟩
        have h0 := h.ok s r hr
        have hl := h.link s r hr
        obtain ⟨r', a, e1, e2, e3, e4, e5, e6, e7, e8⟩ := SampReactor.more_ok h0.inv haf
        rw [e1]
        have hgone : r.gone = false := by
          cases hx : r.gone with
          | false => rfl
          | true => exact absurd (h0.inv.gone hx).2.2.2.1 haf
        refine AInv.putAsk h (fun n t ht => (h.tabs n t ht).mono _) Grown.rfl (fun s' _ => ha s') (fun _ _ _ => .refl _)
          ⟨by rw [(ha s).requests]; exact e2, hcanc hr e6 (by simp), fun c g => (h0.why c (by rw [← e8]; exact g)).mono _,
            fun y hy => h0.logged y (by rw [← e7]; exact hy)⟩ e3 (fun t ht => hl.tbl t (by rw [← e4]; exact ht)) (fun g => hl.empty g)
          (fun _ g2 => ?_) (fun _ _ => by rw [e5]; exact hgone) (fun x _ => by simp [askTime])
        subst g2
        exact hl.mono (fun _ => .refl _) (fun _ => rfl) e3 e4 (fun g => by rw [← e5]; exact g)
  | next s =>
    simp only at hs
    split at hs
    · cases hs
    · rename_i r hr
      split at hs
      · rename_i hre
        cases hs
        have ha : ∀ s', Apart s' (.next s) := fun s' => ⟨by simp [requests], by simp⟩
        have h0 := h.ok s r hr
        obtain ⟨r', e1, e2, e3, e4, e5, e6, e7, e8⟩ := SampReactor.next_ok h0.inv hre
        rw [e1]
        exact h.set hr (fun s' _ => ha s') (by rw [(ha s).requests]; exact e2) (hcanc hr e6 (by simp)) (fun c g => .inl (e8 ▸ g)) e3 e4
          (fun g => by rw [← e5]; exact g) e7
      · cases hs
  | cancel s =>
    simp only at hs
    split at hs
    · cases hs
    · rename_i r hr
      split at hs
      · cases hs
      · cases hs
        have h0 := h.ok s r hr
        have hrq : requests s (evs ++ [.cancel s]) = requests s evs := by rw [requests_snoc]; simp [requests]
        refine h.set hr (fun s' hne => ⟨by simp [requests], by simpa using Ne.symm hne⟩) (by rw [hrq]; exact SampReactor.cancel_ok h0.inv) ?_
          (fun c g => .inl g) rfl rfl id rfl
        simp [SampReactor.onCancel, Cancelled]
  | done s =>
    simp only at hs
    split at hs
    · cases hs
    · rename_i r hr
      split at hs
      · rename_i hc
        cases hs
        have ha : ∀ s', Apart s' (.done s) := fun s' => ⟨by simp [requests], by simp⟩
        have h0 := h.ok s r hr
        obtain ⟨c1, c2, c3, c4, c5, c6⟩ := hc
        exact h.set hr (fun s' _ => ha s') (by rw [(ha s).requests]; exact SampReactor.done_ok h0.inv c1 (by simpa using c2) (by simpa using c3) c4 (by simpa using c5))
          (hcanc hr rfl (by simp)) (fun c g => .inl g) rfl rfl (by simp) rfl
      · cases hs
  | table name a =>
    simp only at hs
    split at hs
    · cases hs
    · rename_i t ht
      split at hs
      · cases hs
      · rename_i ho
        split at hs
        · cases hs
        · rename_i w' hst
          cases hs
          have ho : isOwn a = false := by simpa using ho
          have ha : ∀ s', Apart s' (.table name a) := fun s' => ⟨by simp [requests], by simp⟩
          have hti := (h.tabs _ _ ht).step hst ho (hp name a (by simp))
          have hd : w'.dead = false := hti.alive
          have := h.same (e := .table name a) (T := v.tables.insert name ⟨w', t.todo ++ w'.out.drop t.w.out.length, t.calling⟩) (fun n x hx => ?_)
            (Grown.insert ht (Worker.log_step hst)) ha (fun s' => .inl fun n => ?_)
          · rw [h.alive] at this
            rw [hd]
            exact this
          · rw [AMap.get?_insert] at hx
            split at hx
            · cases hx; subst_vars; exact hti
            · exact (h.tabs _ _ hx).mono _
          · rw [pendOf_insert]
            split
            · subst_vars
              rw [pendOf_some ht]
              rcases SampTable.pend_step (h.tabs _ _ ht).served hst with ⟨id, k, dl, rfl, hpe⟩ | hpe
              · rw [hpe, List.filter_append]
                simp only [isOwn, decide_eq_false_iff_not] at ho
                have : id ≠ reqId s' := by simp only [reqId]; omega
                simp [this]
              · exact hpe.filter _
            · exact .refl _
  | deliver name i now =>
    simp only at hs
    split at hs
    · cases hs
    · rename_i t ht
      split at hs
      · cases hs
      · rename_i o ho
        cases hs
        exact h.deliver hw ht ho

theorem run_ind {w : Wire} {P : List Event → AsyncSampler → Prop} (hstep : ∀ pre v e v', P pre v → v.step w e = some v' → P (pre ++ [e]) v') :
    ∀ (post pre : List Event) (v v' : AsyncSampler), P pre v → v.run w post = some v' → P (pre ++ post) v'
  | [], pre, v, v', hp, h => by simp [run] at h; subst h; simpa using hp
  | e :: post, pre, v, v', hp, h => by
    simp only [run] at h
    split at h
    · cases h
    · rename_i v1 h1
      have := run_ind hstep post (pre ++ [e]) v1 v' (hstep pre v e v1 hp h1) h
      simpa using this

theorem init_get (T : AMap String Table) (name : String) : (init T).tables.get? name = (T.get? name).map fun t => ⟨Worker.init t, [], []⟩ := by
  obtain ⟨l, hl⟩ := T
  simp only [init, AMap.get?]
  clear hl
  induction l with
  | nil => rfl
  | cons e l ih =>
    obtain ⟨a, b⟩ := e
    simp only [List.map_cons, List.lookup_cons]
    split
    · rfl
    · exact ih

theorem AInv.init (w : Wire) (cfgs : AMap String Config) : AInv w cfgs [] (AsyncSampler.init (newTables cfgs)) := by
  refine ⟨rfl, fun name => ?_, fun name t ht => ?_, fun s _ => ⟨rfl, by simp [Cancelled], fun name => ?_⟩, fun s r hs => ?_, fun s r hs => ?_⟩
  · simp [AMap.contains, init_get, newTables_get]
  · rw [init_get, newTables_get] at ht
    cases hc : cfgs.get? name with
    | none => rw [hc] at ht; cases ht
    | some c =>
      rw [hc] at ht
      cases ht
      exact ⟨⟨c, [], hc, rfl, by simp, by simp⟩, .init c, by simp, by simp [Worker.init]⟩
  · unfold pendOf
    rw [init_get]
    cases (newTables cfgs).get? name with
    | none => rfl
    | some t => simp [SampTable.pend, Worker.init, answers, live]
  · simp [AsyncSampler.init, AMap.empty, AMap.get?] at hs
  · simp [AsyncSampler.init, AMap.empty, AMap.get?] at hs

theorem AInv.run {w : Wire} (hw : ∀ k, (w.content k).key = k) {cfgs : AMap String Config} {evs : List Event} {v : AsyncSampler}
    (h : (AsyncSampler.init (newTables cfgs)).run w evs = some v) (hp : Proper cfgs evs) : AInv w cfgs evs v := by
  have := run_ind (P := fun pre v => Proper cfgs pre → AInv w cfgs pre v) (fun pre v e v' ih hs hpre =>
    (ih fun n a ha => hpre n a (List.mem_append_left _ ha)).step hw (fun n a ha => hpre n a (List.mem_append_right _ ha)) hs) evs [] _ v
    (fun _ => AInv.init w cfgs) h
  exact this hp

end AsyncSampler
end Verif
