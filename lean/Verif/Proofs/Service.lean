import Verif.Proofs.TableOrigin
import Verif.Proofs.SampleSync
import Verif.Proofs.InsertCache
import Verif.Spec.Service
/-
Invariants of the server as a whole: where items and samples come from.
-/
namespace Verif
open Table (Op AllOf)

namespace Service

/-- The item was sent on some stream, for this table, and its chunks as well. -/
def SentBy (req : Nat → List InsertReq) (name : String) (item : Item) : Prop :=
  ∃ s, ∃ r ∈ req s, ∃ it, r.item = some it ∧ it.table = name ∧ it.key = item.key ∧ it.traj = item.traj ∧
    ∀ k ∈ getChunkKeys item.traj, ∃ r' ∈ req s, ∃ ch ∈ r'.chunks, ch.key = k

/-- And it is well formed. -/
def Prov (req : Nat → List InsertReq) (name : String) (item : Item) : Prop := Table.itemValid item = true ∧ SentBy req name item

theorem SentBy.mono {req req' : Nat → List InsertReq} (h : ∀ s, ∀ r ∈ req s, r ∈ req' s) {name : String} {item : Item}
    (g : SentBy req name item) : SentBy req' name item := by
  obtain ⟨s, r, hr, it, h1, h2, h3, h4, h5⟩ := g
  refine ⟨s, r, h s r hr, it, h1, h2, h3, h4, fun k hk => ?_⟩
  obtain ⟨r', q1, q2⟩ := h5 k hk
  exact ⟨r', h s r' q1, q2⟩

theorem Prov.mono {req req' : Nat → List InsertReq} (h : ∀ s, ∀ r ∈ req s, r ∈ req' s) {name : String} {item : Item}
    (g : Prov req name item) : Prov req' name item := ⟨g.1, g.2.mono h⟩

theorem prov_stable (req : Nat → List InsertReq) (name : String) : StableOn (Prov req name) := by
  intro a b h1 h2 h3 ⟨h4, s, r, hr, it, h5, h6, h7, h8, h9⟩
  refine ⟨?_, s, r, hr, it, h5, h6, h7.trans h1, h8.trans h2, h2 ▸ h9⟩
  rw [Table.itemValid] at h4 ⊢
  rw [← h2, ← h3]; exact h4

/-- The invariant of tables and insert streams. -/
structure InsOk (req : Nat → List InsertReq) (tables : AMap String Table) (streams : AMap Nat SyncStream) : Prop where
  tables : ∀ name t, tables.get? name = some t → AllOf (Prov req name) t
  cache : ∀ s x, streams.get? s = some x → ∀ k ch, x.cache.get? k = some ch → ch.key = k ∧ ∃ r ∈ req s, ch ∈ r.chunks
  phase : ∀ s x it item wt, streams.get? s = some x → x.phase = .inserting it item wt →
    SentBy req it.table item ∧ (wt = true → Table.itemValid item = true)

theorem InsOk.mono {req req' : Nat → List InsertReq} (h : ∀ s, ∀ r ∈ req s, r ∈ req' s) {tables : AMap String Table}
    {streams : AMap Nat SyncStream} (g : InsOk req tables streams) : InsOk req' tables streams := by
  refine ⟨fun n t ht k it hk => (g.tables n t ht k it hk).mono h, fun s x hx k ch hc => ?_, fun s x it item wt hx hp => ?_⟩
  · obtain ⟨h1, r, h2, h3⟩ := g.cache s x hx k ch hc
    exact ⟨h1, r, h s r h2, h3⟩
  · obtain ⟨h1, h2⟩ := g.phase s x it item wt hx hp
    exact ⟨h1.mono h, h2⟩

/-- Change of a stream. -/
theorem InsOk.set {req : Nat → List InsertReq} {tables : AMap String Table} {streams : AMap Nat SyncStream} (g : InsOk req tables streams)
    {s : Nat} {x : SyncStream} (hc : ∀ k ch, x.cache.get? k = some ch → ch.key = k ∧ ∃ r ∈ req s, ch ∈ r.chunks)
    (hp : ∀ it item wt, x.phase = .inserting it item wt → SentBy req it.table item ∧ (wt = true → Table.itemValid item = true)) :
    InsOk req tables (streams.insert s x) := by
  refine ⟨g.tables, fun s' x' hx' => ?_, fun s' x' it item wt hx' => ?_⟩
  · rw [AMap.get?_insert] at hx'
    split at hx'
    · cases hx'; subst_vars; exact hc
    · exact g.cache s' x' hx'
  · rw [AMap.get?_insert] at hx'
    split at hx'
    · cases hx'; exact hp it item wt
    · exact g.phase s' x' it item wt hx'

/-- Change of a table. -/
theorem InsOk.table {req : Nat → List InsertReq} {tables : AMap String Table} {streams : AMap Nat SyncStream} (g : InsOk req tables streams)
    {name : String} {t : Table} (h : AllOf (Prov req name) t) : InsOk req (tables.insert name t) streams := by
  refine ⟨fun n t' ht => ?_, g.cache, g.phase⟩
  rw [AMap.get?_insert] at ht
  split at ht
  · cases ht; subst_vars; exact h
  · exact g.tables n t' ht

/-- A request: the chunks and the item of the stream. -/
theorem take_prov {req req' : Nat → List InsertReq} {v : SyncServer} {s : Nat} {cache : Cache} {r : InsertReq}
    (h : ∀ k ch, cache.get? k = some ch → ch.key = k ∧ ∃ r ∈ req s, ch ∈ r.chunks) (hm : ∀ r' ∈ req s, r' ∈ req' s) (hr : r ∈ req' s) :
    (∀ k ch, (v.take ⟨cache, .reading⟩ r).cache.get? k = some ch → ch.key = k ∧ ∃ r ∈ req' s, ch ∈ r.chunks) ∧
    ∀ it item wt, (v.take ⟨cache, .reading⟩ r).phase = .inserting it item wt → SentBy req' it.table item ∧ (wt = true → Table.itemValid item = true) := by
  have hc : ∀ k ch, (saveChunks .sync cache r.chunks).get? k = some ch → ch.key = k ∧ ∃ r ∈ req' s, ch ∈ r.chunks := by
    intro k ch hk
    rcases saveChunks_get .sync r.chunks cache k ch hk with h1 | ⟨h1, h2⟩
    · obtain ⟨h2, r', h3, h4⟩ := h k ch h1
      exact ⟨h2, r', hm r' h3, h4⟩
    · exact ⟨h2, r, hr, h1⟩
  unfold SyncServer.take
  simp only
  split
  · exact ⟨hc, by simp⟩
  · rename_i it hi
    split
    · exact ⟨hc, by simp⟩
    · rename_i chunks hf
      split
      · refine ⟨hc, fun it' item wt hp => ?_⟩
        simp only [SyncPhase.inserting.injEq] at hp
        obtain ⟨rfl, rfl, rfl⟩ := hp
        refine ⟨⟨s, r, hr, it, hi, rfl, rfl, rfl, fun k hk => ?_⟩, by simp⟩
        have hg : ((saveChunks .sync cache r.chunks).get? k).isSome := by
          unfold findChunks at hf
          clear hc
          replace hk : k ∈ getChunkKeys it.traj := hk
          revert hf hk
          generalize getChunkKeys it.traj = ks
          intro hf hk
          induction ks generalizing chunks with
          | nil => simp at hk
          | cons a ks ih =>
            rw [List.mapM_cons] at hf
            cases ha : (saveChunks .sync cache r.chunks).get? a with
            | none => rw [ha] at hf; cases hf
            | some c =>
              rw [ha] at hf
              rcases List.mem_cons.mp hk with rfl | hk
              · rw [ha]; rfl
              · cases hks : ks.mapM (saveChunks .sync cache r.chunks).get? with
                | none => rw [hks] at hf; cases hf
                | some cs => exact ih cs hks hk
        obtain ⟨ch, hch⟩ := Option.isSome_iff_exists.mp hg
        obtain ⟨h1, r', h2, h3⟩ := hc k ch hch
        exact ⟨r', h2, ch, h3, h1⟩
      · exact ⟨hc, by simp⟩

/-- An insertion of an item that was sent, by any of the two critical sections. -/
theorem insert_prov {P : Item → Prop} (hP : StableOn P) {t : Table} (ht : AllOf P t) {item : Item} {wt : Bool} {now : Int} {d : Draw}
    (hi : Table.itemValid item = true → P item) (hw : wt = true → Table.itemValid item = true) :
    AllOf P (t.step (if wt = true then .insertResume item now d else .insert item now d)).1 ∧
    ((t.step (if wt = true then .insertResume item now d else .insert item now d)).2 = .ok .blocked → Table.itemValid item = true) := by
  by_cases hv : Table.itemValid item = true
  · refine ⟨(Table.step_fine hP ht ?_).1, fun _ => hv⟩
    intro i now' he
    split at he <;> (cases he; exact hi hv)
  · have hwt : ¬ wt = true := fun h => hv (hw h)
    rw [if_neg hwt]
    have : t.step (.insert item now d) = (t, .err .invalidArgument) := by
      simp only [Table.step, Table.insertOrAssign, hv]
      rfl
    rw [this]
    exact ⟨ht, fun h => by cases h⟩

theorem release_get {cache c : Cache} {keep : List Key} (h : releaseChunks .sync cache keep = some c) {k : Key} {ch : ChunkData}
    (g : c.get? k = some ch) : cache.get? k = some ch := by
  rw [releaseChunks_eq h, AMap.get?_keep] at g
  split at g
  · exact g
  · cases g

theorem InsOk.release {req : Nat → List InsertReq} {v : SyncServer} (h : InsOk req v.tables v.streams) {s : Nat} {x : SyncStream} {it : InsertItem}
    (hc : ∀ k ch, x.cache.get? k = some ch → ch.key = k ∧ ∃ r ∈ req s, ch ∈ r.chunks) :
    InsOk req (v.release s x it).tables (v.release s x it).streams := by
  unfold SyncServer.release
  split
  · exact h
  · rename_i c hrel
    exact h.set (fun k ch g => hc k ch (release_get hrel g)) (by simp)

/-- A step of an insert stream. -/
theorem InsOk.step {req req' : Nat → List InsertReq} {v v' : SyncServer} {e : SyncServer.Event} (h : InsOk req v.tables v.streams)
    (hm : ∀ s, ∀ r ∈ req s, r ∈ req' s) (hr : ∀ s r, e = .request s r → r ∈ req' s) (he : ofStream e = true) (hs : v.step e = some v') :
    InsOk req' v'.tables v'.streams := by
  have h' := h.mono hm
  unfold SyncServer.step at hs
  split at hs
  · cases hs
  · cases e with
    | start s =>
      simp only at hs
      split at hs
      · cases hs
      · cases hs
        exact h'.set (fun k ch g => by cases g) (by simp)
    | request s r =>
      simp only at hs
      split at hs
      · rename_i cache hst
        cases hs
        obtain ⟨h1, h2⟩ := take_prov (req' := req') (v := v) (h.cache s _ hst) (hm s) (hr s r rfl)
        exact h'.set h1 h2
      · cases hs
    | eof s =>
      simp only at hs
      split at hs
      · rename_i cache hst
        cases hs
        have hc := h'.cache s _ hst
        exact h'.set hc (by simp)
      · cases hs
    | insert s now d =>
      simp only at hs
      split at hs
      · rename_i cache it item wt hst
        split at hs
        · cases hs
        · rename_i t ht
          cases hs
          obtain ⟨p1, p2⟩ := h'.phase s _ it item wt hst rfl
          obtain ⟨q1, q2⟩ := insert_prov (prov_stable req' it.table) (h'.tables _ _ ht) (item := item) (wt := wt) (now := now) (d := d)
            (fun hv => ⟨hv, p1⟩) p2
          have hT := h'.table q1
          have hc := h'.cache s _ hst
          generalize hres : t.step (if wt = true then .insertResume item now d else .insert item now d) = r at q1 q2 hT ⊢
          obtain ⟨t', (_ | _ | l) | c | _⟩ := r
          · simp only [SyncServer.inserted]
            split
            · exact hT.set hc (by simp)
            · exact InsOk.release (v := { v with tables := v.tables.insert it.table t' }) hT hc
          · exact hT.set hc fun it' item' wt' g => by
              simp only [SyncPhase.inserting.injEq] at g
              obtain ⟨rfl, rfl, rfl⟩ := g
              exact ⟨p1, fun _ => q2 rfl⟩
          · exact hT
          · exact hT.set hc (by simp)
          · exact hT
      · cases hs
    | confirm s ok =>
      simp only at hs
      split at hs
      · rename_i cache it hst
        split at hs
        · cases hs
          exact InsOk.release (v := { v with confirmed := v.confirmed ++ [(s, it.table, it.key)] }) h' (h'.cache s _ hst)
        · cases hs
          have hc := h'.cache s _ hst
          exact h'.set hc (by simp)
      · cases hs
    | table name op => cases he

/-! ### The sample streams -/

/-- What has been written, and what is to be written. -/
def Wrote (w : Wire) (x : SampStream) : Prop :=
  match x.phase with
  | .writing _ _ _ todo => x.written ++ todo = SyncSampler.msgs w x.got
  | .ended _ => x.written <+: SyncSampler.msgs w x.got
  | _ => x.written = SyncSampler.msgs w x.got

/-- The request that is being served. -/
def current : SampPhase → Option SampleReq
  | .ready req _ _ => some req
  | .waiting req _ _ _ => some req
  | .writing req _ _ _ => some req
  | _ => none

/-- The invariant of a sample stream. -/
structure SampOk (w : Wire) (req : Nat → List InsertReq) (asked : List SampleReq) (x : SampStream) : Prop where
  got : ∀ y ∈ x.got, Prov req y.1 y.2.item ∧ ∃ r ∈ asked, r.table = y.1
  wrote : Wrote w x
  cur : ∀ r, current x.phase = some r → r ∈ asked

theorem SampOk.mono {w : Wire} {req req' : Nat → List InsertReq} {asked asked' : List SampleReq} {x : SampStream} (h : SampOk w req asked x)
    (hm : ∀ s, ∀ r ∈ req s, r ∈ req' s) (ha : ∀ r ∈ asked, r ∈ asked') : SampOk w req' asked' x := by
  refine ⟨fun y hy => ?_, h.wrote, fun r hr => ha r (h.cur r hr)⟩
  obtain ⟨h1, r, h2, h3⟩ := h.got y hy
  exact ⟨h1.mono hm, r, ha r h2, h3⟩

/-- All sample streams. -/
def AllSamp (w : Wire) (req : Nat → List InsertReq) (asked : Nat → List SampleReq) (streams : AMap Nat SampStream) : Prop :=
  ∀ q x, streams.get? q = some x → SampOk w req (asked q) x

theorem AllSamp.mono {w : Wire} {req req' : Nat → List InsertReq} {asked asked' : Nat → List SampleReq} {streams : AMap Nat SampStream}
    (h : AllSamp w req asked streams) (hm : ∀ s, ∀ r ∈ req s, r ∈ req' s) (ha : ∀ q, ∀ r ∈ asked q, r ∈ asked' q) :
    AllSamp w req' asked' streams := fun q x hx => (h q x hx).mono hm (ha q)

theorem AllSamp.set {w : Wire} {req : Nat → List InsertReq} {asked : Nat → List SampleReq} {streams : AMap Nat SampStream}
    (h : AllSamp w req asked streams) {q : Nat} {x : SampStream} (hx : SampOk w req (asked q) x) : AllSamp w req asked (streams.insert q x) := by
  intro q' x' g
  rw [AMap.get?_insert] at g
  split at g
  · cases g; subst_vars; exact hx
  · exact h q' x' g

theorem wrote_prefix {w : Wire} {x : SampStream} (h : Wrote w x) : x.written <+: SyncSampler.msgs w x.got := by
  unfold Wrote at h
  split at h
  · exact ⟨_, h⟩
  · exact h
  · exact h ▸ List.prefix_rfl

/-- A result of the table. -/
theorem sampled_ok {w : Wire} {req : Nat → List InsertReq} {asked : Nat → List SampleReq} {v1 : SyncSampler} {q : Nat} {x : SampStream}
    {r : SampleReq} {d c : Int} {dl : Duration} {res : Res Table.Reply} (hA : AllSamp w req asked v1.streams)
    (hx : SampOk w req (asked q) x)
    (hr : r ∈ asked q) (hw : x.written = SyncSampler.msgs w x.got) (hl : ∀ l, res = .ok (.samples l) → ∀ y ∈ l, Prov req r.table y.item) :
    AllSamp w req asked (SyncSampler.sampled w v1 q x r d c dl res).streams ∧
      (SyncSampler.sampled w v1 q x r d c dl res).tables = v1.tables := by
  unfold SyncSampler.sampled
  split
  · rename_i l
    refine ⟨hA.set ⟨fun y hy => ?_, ?_, ?_⟩, rfl⟩
    · rcases List.mem_append.mp hy with hy | hy
      · exact hx.got y hy
      · obtain ⟨z, hz, rfl⟩ := List.mem_map.mp hy
        exact ⟨hl l rfl z hz, r, hr, rfl⟩
    · unfold Wrote SyncSampler.afterWrite
      simp only
      rw [SyncSampler.msgs_append, ← hw]
      split
      · rename_i h
        split at h
        · cases h
        · rename_i e es he
          cases h
          rw [he]
      · rename_i h
        split at h <;> cases h
      · rename_i h _
        split at h
        · rename_i he
          rw [he, List.append_nil]
        · rename_i e es he
          exact absurd rfl (h _ _ _ _)
    · intro r' hr'
      unfold SyncSampler.afterWrite at hr'
      simp only at hr'
      split at hr' <;> (cases hr'; exact hr)
  · exact ⟨hA.set ⟨hx.got, hw, fun r' hr' => by cases hr'; exact hr⟩, rfl⟩
  · exact ⟨hA, rfl⟩
  · exact ⟨hA.set ⟨hx.got, hw ▸ List.prefix_rfl, fun r' hr' => by cases hr'⟩, rfl⟩
  · exact ⟨hA, rfl⟩

/-- A step of a sample stream. -/
theorem samp_step {w : Wire} {req : Nat → List InsertReq} {asked asked' : Nat → List SampleReq} {v v' : SyncSampler} {ins : AMap Nat SyncStream}
    {e : SyncSampler.Event} (hI : InsOk req v.tables ins) (hA : AllSamp w req asked v.streams) (hm : ∀ q, ∀ r ∈ asked q, r ∈ asked' q)
    (hr : ∀ q r, e = .request q r → r ∈ asked' q) (he : ofSampleStream e = true) (hs : v.step w e = some v') :
    InsOk req v'.tables ins ∧ AllSamp w req asked' v'.streams := by
  have hA' : AllSamp w req asked' v.streams := hA.mono (fun _ _ h => h) hm
  have hsec : ∀ (q : Nat) (x : SampStream) (r : SampleReq) (d c : Int) (dl : Duration) (op : Op), v.streams.get? q = some x → r ∈ asked' q →
      x.written = SyncSampler.msgs w x.got → (∃ n ds, op = .sample n ds ∨ op = .sampleResume n ds) →
      SyncSampler.section_ w v q x r d c dl op = some v' → InsOk req v'.tables ins ∧ AllSamp w req asked' v'.streams := by
    intro q x r d c dl op hx hr' hw hop hse
    unfold SyncSampler.section_ at hse
    split at hse
    · cases hse
    · rename_i t ht
      have hno : ∀ i now, Op.item op = some (i, now) → Prov req r.table i := by
        obtain ⟨n, ds, rfl | rfl⟩ := hop <;> exact fun i now h => by cases h
      obtain ⟨f1, f2⟩ := Table.step_fine (prov_stable req r.table) (hI.tables _ _ ht) hno
      have hT := hI.table f1
      cases hse
      obtain ⟨g1, g2⟩ := sampled_ok (w := w) (v1 := { v with tables := v.tables.insert r.table (t.step op).1 }) (d := d) (c := c) (dl := dl) hA'
        (hA' q x hx) hr' hw (fun l hl => f2 l hl hop)
      exact ⟨by rw [g2]; exact hT, g1⟩
  unfold SyncSampler.step at hs
  split at hs
  · cases hs
  · cases e with
    | start q =>
      simp only at hs
      split at hs
      · cases hs
      · cases hs
        exact ⟨hI, hA'.set ⟨by simp, rfl, by simp [current]⟩⟩
    | request q r =>
      simp only at hs
      split at hs
      · rename_i tm cn wr got hx
        cases hs
        have h0 := hA' q _ hx
        have hw0 : wr = SyncSampler.msgs w got := h0.wrote
        refine ⟨hI, hA'.set ?_⟩
        unfold SyncSampler.take
        simp only
        split
        · split
          · exact ⟨h0.got, (show wr <+: _ from hw0 ▸ List.prefix_rfl), by simp [current]⟩
          · exact ⟨h0.got, hw0, fun r' h => by cases h; exact hr q r rfl⟩
        · exact ⟨h0.got, (show wr <+: _ from hw0 ▸ List.prefix_rfl), by simp [current]⟩
      · cases hs
    | eof q =>
      simp only at hs
      split at hs
      · rename_i tm cn wr got hx
        cases hs
        have h0 := hA' q _ hx
        have hw0 : wr = SyncSampler.msgs w got := h0.wrote
        exact ⟨hI, hA'.set ⟨h0.got, (show wr <+: _ from hw0 ▸ List.prefix_rfl), by simp [current]⟩⟩
      · cases hs
    | cancel q =>
      simp only at hs
      split at hs
      · rename_i x hx
        cases hs
        have h0 := hA' q _ hx
        exact ⟨hI, hA'.set ⟨h0.got, h0.wrote, h0.cur⟩⟩
      · cases hs
    | next q =>
      simp only at hs
      split at hs
      · rename_i tm cn r d c wr got hx
        split at hs
        · cases hs
          have h0 := hA' q _ hx
          exact ⟨hI, hA'.set ⟨h0.got, h0.wrote, by simp [current]⟩⟩
        · cases hs
      · cases hs
    | sample q now ds =>
      simp only at hs
      split at hs
      · rename_i tm cn r d c wr got hx
        split at hs
        · cases hs
        · have h0 := hA' q _ hx
          exact hsec q _ r d c _ _ hx (h0.cur r rfl) h0.wrote ⟨_, _, .inl rfl⟩ hs
      · rename_i tm cn r d c dl wr got hx
        have h0 := hA' q _ hx
        exact hsec q _ r d c _ _ hx (h0.cur r rfl) h0.wrote ⟨_, _, .inr rfl⟩ hs
      · cases hs
    | timeout q now =>
      simp only at hs
      split at hs
      · rename_i tm cn r d c dl wr got hx
        split at hs
        · cases hs
          have h0 := hA' q _ hx
          have hw0 : wr = SyncSampler.msgs w got := h0.wrote
          exact ⟨hI, hA'.set ⟨h0.got, (show wr <+: _ from hw0 ▸ List.prefix_rfl), by simp [current]⟩⟩
        · cases hs
      · cases hs
    | write q ok =>
      simp only at hs
      split at hs
      · rename_i tm cn r d c e es wr got hx
        have h0 := hA' q _ hx
        have hw0 : wr ++ e :: es = SyncSampler.msgs w got := h0.wrote
        split at hs
        · cases hs
          refine ⟨hI, hA'.set ⟨h0.got, ?_, ?_⟩⟩
          · unfold SyncSampler.afterWrite
            cases es with
            | nil => exact (show wr ++ [e] = _ from hw0)
            | cons a es => exact (show (wr ++ [e]) ++ a :: es = _ by simpa using hw0)
          · intro r' hr'
            unfold SyncSampler.afterWrite at hr'
            simp only at hr'
            split at hr' <;> (cases hr'; exact h0.cur r rfl)
        · cases hs
          exact ⟨hI, hA'.set ⟨h0.got, ⟨_, hw0⟩, by simp [current]⟩⟩
      · cases hs
    | table name op => cases he

/-! ### Everything together -/

theorem insertRequests_snoc (s : Nat) (evs : List Event) (e : Event) : insertRequests s (evs ++ [e]) = insertRequests s evs ++ insertRequests s [e] := by
  simp [insertRequests, SyncServer.requests, List.filterMap_append]

theorem sampleRequests_snoc (q : Nat) (evs : List Event) (e : Event) : sampleRequests q (evs ++ [e]) = sampleRequests q evs ++ sampleRequests q [e] := by
  simp [sampleRequests, SyncSampler.requests, List.filterMap_append]

/-- The invariant of the server. -/
structure Inv (w : Wire) (evs : List Event) (v : Service) : Prop where
  ins : InsOk (fun s => insertRequests s evs) v.tables v.inserts
  samp : AllSamp w (fun s => insertRequests s evs) (fun q => sampleRequests q evs) v.samples

theorem Inv.init (w : Wire) (cfgs : AMap String Config) : Inv w [] (init (newTables cfgs)) := by
  refine ⟨⟨fun name t ht k it hk => ?_, fun s x h => (by cases h), fun s x _ _ _ h => (by cases h)⟩, fun q x h => (by cases h)⟩
  have hm := (AMap.mem_entries_iff _ _ _).mpr ht
  simp only [Service.init, newTables, List.mem_map] at hm
  obtain ⟨e, _, he⟩ := hm
  cases he
  simp [Config.init, Table.make] at hk

theorem Inv.step {w : Wire} {evs : List Event} {v v' : Service} {e : Event} (h : Inv w evs v) (hs : v.step w e = some v') :
    Inv w (evs ++ [e]) v' := by
  have hm : ∀ s, ∀ r ∈ insertRequests s evs, r ∈ insertRequests s (evs ++ [e]) := fun s r hr => by
    rw [insertRequests_snoc]; exact List.mem_append_left _ hr
  have ha : ∀ q, ∀ r ∈ sampleRequests q evs, r ∈ sampleRequests q (evs ++ [e]) := fun s r hr => by
    rw [sampleRequests_snoc]; exact List.mem_append_left _ hr
  cases e with
  | insert e =>
    simp only [Service.step] at hs
    split at hs
    · rename_i he
      split at hs
      · cases hs
      · rename_i x hx
        cases hs
        refine ⟨InsOk.step (v := v.asServer) h.ins hm (fun s r hr => ?_) he hx, h.samp.mono hm ha⟩
        rw [hr]
        simp [insertRequests, SyncServer.requests]
    · cases hs
  | sample e =>
    simp only [Service.step] at hs
    split at hs
    · rename_i he
      split at hs
      · cases hs
      · rename_i x hx
        cases hs
        obtain ⟨g1, g2⟩ := samp_step (v := v.asSampler) (h.ins.mono hm) (h.samp.mono hm fun _ _ g => g) ha (fun q r hr => by
          rw [hr]
          simp [sampleRequests, SyncSampler.requests]) he hx
        exact ⟨g1, g2⟩
    · cases hs
  | unary u =>
    simp only [Service.step] at hs
    split at hs
    · cases hs
    · cases hs
      unfold Service.unary
      split
      · exact ⟨h.ins.mono hm, h.samp.mono hm ha⟩
      · rename_i t ht
        refine ⟨(h.ins.mono hm).table ?_, h.samp.mono hm ha⟩
        refine (Table.step_fine (prov_stable _ _) ((h.ins.mono hm).tables _ _ ht) ?_).1
        cases u <;> exact fun i now g => by cases g

theorem run_snoc {w : Wire} : ∀ {evs : List Event} {v v' v'' : Service} {e : Event}, v.run w evs = some v' → v'.step w e = some v'' →
    v.run w (evs ++ [e]) = some v''
  | [], v, v', v'', e, h, hs => by
    cases h
    simp [run, hs]
  | a :: evs, v, v', v'', e, h, hs => by
    simp only [run, List.cons_append] at h ⊢
    split at h
    · cases h
    · exact run_snoc h hs

theorem inv_run {w : Wire} {cfgs : AMap String Config} {evs : List Event} {v : Service} (h : (Service.init (newTables cfgs)).run w evs = some v) :
    Inv w evs v := by
  have key : ∀ (post pre : List Event) (x : Service), Inv w pre x → x.run w post = some v → Inv w (pre ++ post) v := by
    intro post
    induction post with
    | nil => intro pre x hx hr; cases hr; simpa using hx
    | cons e post ih =>
      intro pre x hx hr
      simp only [run] at hr
      split at hr
      · cases hr
      · rename_i x' hs
        have := ih (pre ++ [e]) x' (hx.step hs) hr
        simpa using this
  exact key evs [] _ (Inv.init w cfgs) h

end Service
end Verif
