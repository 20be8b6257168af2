import Verif.Spec.EndToEnd
import Verif.Proofs.EndToEnd
import Verif.Proofs.Service
import Verif.Proofs.Links
import Verif.Proofs.TrajSent
import Verif.Props.C33_Columns
import Verif.Props.C45_C68_ClientSampler
import Verif.Props.C55_C58_SampleSync
import Verif.Props.C69_SampleOrder
/-
C89: what a sampler returns is what a writer was given, through the server.
-/
namespace Verif

namespace Service

/-- The contents of chunks exist if all that is inserted comes from trajectory writers whose generators never draw the same key. -/
theorem contents_exist {evs : List Event} {W : Nat → TrajWriter} {E : Nat → List TrajWriter.Event} (hW : ∀ i, (W i).Started)
    (hE : ∀ i, ∀ e ∈ E i, e.Valid) (hk : ∀ i j a m b n, (W i).colGen a m = (W j).colGen b n → i = j)
    (hs : ∀ s, ∃ i, ∃ str ∈ ((W i).run (E i)).streams, insertRequests s evs <+: str.map Msg.toReq) (w : Wire) :
    ∃ content : Key → ChunkData, (∀ k, (content k).key = k) ∧ Contents { w with content := content } evs := by
  have hch : ∀ s, ∀ r ∈ insertRequests s evs, ∀ ch ∈ r.chunks, ∃ i, ((W i).run (E i)).Known ch := by
    intro s r hr ch hch
    obtain ⟨i, str, h1, h2⟩ := hs s
    obtain ⟨m, h3, rfl⟩ := List.mem_map.mp (h2.subset hr)
    exact ⟨i, ((hW i).sentKnown (hE i)).1 str h1 m h3 ch hch⟩
  have huniq : ∀ a b : ChunkData, (∃ i, ((W i).run (E i)).Known a) → (∃ i, ((W i).run (E i)).Known b) → a.key = b.key → a = b := by
    intro a b ⟨i, ha⟩ ⟨j, hb⟩ hab
    obtain ⟨rows, _, hi⟩ := (hW i).run (hE i)
    obtain ⟨_, _, hj⟩ := (hW j).run (hE j)
    obtain ⟨x, m, e1⟩ := hi.base.known_key ha
    obtain ⟨y, n, e2⟩ := hj.base.known_key hb
    rw [((hW i).sentKnown (hE i)).2] at e1
    rw [((hW j).sentKnown (hE j)).2] at e2
    obtain rfl := hk i j x m y n (by rw [← e1, ← e2, hab])
    exact hi.base.known_eq ha hb hab
  have hex : ∀ k : Key, ∃ ch : ChunkData, ch.key = k ∧ ∀ a, (∃ i, ((W i).run (E i)).Known a) → a.key = k → ch = a := by
    intro k
    by_cases h : ∃ a : ChunkData, (∃ i, ((W i).run (E i)).Known a) ∧ a.key = k
    · obtain ⟨a, h1, h2⟩ := h
      exact ⟨a, h2, fun b h3 h4 => huniq a b h1 h3 (h2.trans h4.symm)⟩
    · exact ⟨⟨k, none, [], false⟩, rfl, fun a h1 h2 => absurd ⟨a, h1, h2⟩ h⟩
  obtain ⟨content, hcon⟩ := Classical.axiomOfChoice hex
  exact ⟨content, fun k => (hcon k).1, fun s r hr ch hc => (hcon ch.key).2 ch (hch s r hr ch hc) rfl⟩

/-- The samples of a stream, where they come from and what is sent of them. -/
theorem stream_facts {w : Wire} (hw : ∀ k, (w.content k).key = k) {cfgs : AMap String Config} {evs : List Event} {v : Service}
    (hr : (Service.init (newTables cfgs)).run w evs = some v) (q : Nat) :
    (∀ y ∈ v.got q, Prov (fun s => insertRequests s evs) y.1 y.2.item ∧ ∃ r ∈ sampleRequests q evs, r.table = y.1) ∧
    clientSamples (v.written q) <+: localSamples w (v.got q) := by
  have hi := inv_run hr
  cases hx : v.samples.get? q with
  | none =>
    have h1 : v.got q = [] := by simp [got, SyncSampler.got, asSampler, hx]
    have h2 : v.written q = [] := by simp [written, SyncSampler.written, asSampler, hx]
    rw [h1, h2]
    exact ⟨by simp, List.prefix_rfl⟩
  | some x =>
    have h1 : v.got q = x.got := SyncSampler.got_eq (v := v.asSampler) hx
    have h2 : v.written q = x.written := SyncSampler.written_eq (v := v.asSampler) hx
    have hs := hi.samp q x hx
    rw [h1, h2]
    refine ⟨hs.got, ?_⟩
    rw [← (SyncSampler.msgs_collect hw fun y hy => (hs.got y hy).1.1).2]
    exact SyncSampler.clientSamples_prefix (wrote_prefix hs.wrote)

theorem flow {w : Wire} (hw : ∀ k, (w.content k).key = k) {cfgs : AMap String Config} {evs : List Event} {v : Service}
    (hr : (Service.init (newTables cfgs)).run w evs = some v) : Flow w (insertRequests · evs) (sampleRequests · evs) v.got v.written :=
  ⟨hw, fun q => (stream_facts hw hr q).1, fun q => (stream_facts hw hr q).2⟩

/-- C89, server: after any schedule of any number of insert streams, sample streams and other calls, every sample that was taken from a table
for a sample stream is one of an item that some client sent, for this table, with this key and this trajectory; the chunks that are sent with the
sample are all those of the trajectory, and the client sent them on the same stream as the item. What a client of the sample stream makes of the
messages are the samples taken for it, in order, each at most once. -/
theorem C89_origin {w : Wire} (hw : ∀ k, (w.content k).key = k) {cfgs : AMap String Config} {evs : List Event} {v : Service}
    (hr : (Service.init (newTables cfgs)).run w evs = some v) (hc : Contents w evs) (q : Nat) :
    (∀ y ∈ v.got q, (∃ r ∈ sampleRequests q evs, r.table = y.1) ∧
      Sent evs y.1 y.2.item.key (y.2.sent w).traj (y.2.sent w).chunks) ∧
    clientSamples (v.written q) <+: localSamples w (v.got q) :=
  (flow hw hr).origin hc q

/-- C89, writer and server: if in addition the requests on the stream are those of a trajectory writer (or the first of them), then the item is one that a
call of `CreateItem` of this writer made, for this table; and for contiguous references the sample can be unpacked and its columns are the
tensors that the writer was given. -/
theorem C89_written_partial {w : Wire} (hw : ∀ k, (w.content k).key = k) {cfgs : AMap String Config} {evs : List Event} {v : Service}
    (hr : (Service.init (newTables cfgs)).run w evs = some v) (hc : Contents w evs) {q : Nat} {y : String × Sampled} (hy : y ∈ v.got q) :
    ∃ s, (∃ r ∈ insertRequests s evs, ∃ it, r.item = some it ∧ it.table = y.1 ∧ it.key = y.2.item.key) ∧
      ∀ (W : TrajWriter) (E : List TrajWriter.Event) (str : List Msg), W.Started → (∀ e ∈ E, e.Valid) → str ∈ (W.run E).streams →
        insertRequests s evs <+: str.map Msg.toReq →
        ∃ pre cols, W.Made E y.1 y.2.item.key pre cols ∧
          ((∀ col ∈ cols, (W.run pre).Contiguous col.refs) → ∀ values, W.Gives pre cols values →
            ∃ smp out, asSampleLocal (y.2.sent w) = .ok smp ∧ smp.asTrajectory = .ok out ∧ TrajWriter.ReadsBack cols values out) :=
  (flow hw hr).made hc hy

/-- C89, sampler and server: let a sampler be connected to the server. The samples that came into its queue are, stream by stream, samples that
the server took for the stream, in the order of the table calls, none twice. -/
theorem C89_sampler {w : Wire} (hw : ∀ k, (w.content k).key = k) {cfgs : AMap String Config} {evs : List Event} {v : Service}
    (hr : (Service.init (newTables cfgs)).run w evs = some v) {c : SamplerCfg} {t : String} {a b : Int} (hsrc : c.source = .grpc t a b) {now : Int}
    {cev : List ClientSampler.Event} {u : ClientSampler} {L : Links} (hl : ClientSampler.Linked c now v.written cev u L) :
    L.opened.Nodup ∧ u.arrived.Perm (L.opened.flatMap L.came) ∧ ∀ q, (L.came q).map .ok <+: localSamples w (v.got q) :=
  (flow hw hr).sampler hsrc hl

/-- C89: let writers insert through a server and let a sampler that is connected to it return a trajectory. Then the trajectory is that of an item of the
table of the sampler, which a client sent; if the client is a trajectory writer, it is an item that `CreateItem` made, and if
the references of the item are contiguous, the columns are the tensors that were given to `Append`. -/
theorem C89_end_to_end_partial {w : Wire} (hw : ∀ k, (w.content k).key = k) {cfgs : AMap String Config} {evs : List Event} {v : Service}
    (hr : (Service.init (newTables cfgs)).run w evs = some v) (hc : Contents w evs) {c : SamplerCfg} (hcv : c.Valid) {t : String} {a b : Int}
    (hsrc : c.source = .grpc t a b) {now : Int} {cev : List ClientSampler.Event} {u : ClientSampler} {L : Links}
    (hl : ClientSampler.Linked c now v.written cev u L) (hnt : ∀ e ∈ cev, ClientSampler.NoTimesteps e)
    (hask : ∀ q ∈ L.opened, ∀ r ∈ sampleRequests q evs, r ∈ u.sent) {out : List Tensor} (ho : .trajectory out ∈ u.log) :
    ∃ s key, (∃ r ∈ insertRequests s evs, ∃ it, r.item = some it ∧ it.table = t ∧ it.key = key) ∧
      ∀ (W : TrajWriter) (E : List TrajWriter.Event) (str : List Msg), W.Started → (∀ e ∈ E, e.Valid) → str ∈ (W.run E).streams →
        insertRequests s evs <+: str.map Msg.toReq →
        ∃ pre cols, W.Made E t key pre cols ∧
          ((∀ col ∈ cols, (W.run pre).Contiguous col.refs) → ∀ values, W.Gives pre cols values → TrajWriter.ReadsBack cols values out) :=
  (flow hw hr).end_to_end hc hcv hsrc hl hnt hask ho

end Service

/-! ### An example -/

namespace ClientSampler

/-- One step of a connected sampler; `q` is the next stream, if one is opened. -/
def linkStep (c : SamplerCfg) (wr : Nat → List Entry) (x : ClientSampler × Links) (q : Nat) (e : Event) : Option (ClientSampler × Links) :=
  match step c x.1 e with
  | none => none
  | some v' =>
    match e with
    | .response i es =>
      match x.2.conn i with
      | some q => if (x.2.read q ++ es).isPrefixOf (wr q) then some (v', { x.2 with read := setAt x.2.read q (x.2.read q ++ es) }) else none
      | none => none
    | .work i =>
      match x.1.workers[i]? with
      | some ⟨false, .fetch _ _ .opening⟩ =>
        if q ∈ x.2.opened then none else some (v', { x.2 with
          conn := setAt x.2.conn i (some q)
          opened := x.2.opened ++ [q] })
      | _ =>
        if v'.pushed = x.1.pushed then some (v', x.2)
        else
          match x.2.conn i, v'.pushed.getLast? with
          | some q, some (j, s) => if v'.pushed = x.1.pushed ++ [(i, s)] ∧ j = i then some (v', { x.2 with came := setAt x.2.came q (x.2.came q ++ [s]) }) else none
          | _, _ => none
    | _ => if v'.pushed = x.1.pushed then some (v', x.2) else none

theorem linkStep_linked {c : SamplerCfg} {now : Int} {wr : Nat → List Entry} {evs : List Event} {x x' : ClientSampler × Links} {q : Nat} {e : Event}
    (h : Linked c now wr evs x.1 x.2) (hs : linkStep c wr x q e = some x') : Linked c now wr (evs ++ [e]) x'.1 x'.2 := by
  unfold linkStep at hs
  split at hs
  · cases hs
  · rename_i v' hv
    split at hs
    · split at hs
      · split at hs
        · rename_i hq hp
          cases hs
          exact .reads h hq (List.isPrefixOf_iff_prefix.mp hp) hv
        · cases hs
      · cases hs
    · split at hs
      · rename_i i _ _ _ hw
        split at hs
        · cases hs
        · rename_i hq
          cases hs
          exact .opens h hw hq hv
      · rename_i i _ hno
        split at hs
        · rename_i hp
          cases hs
          exact .other h (fun _ _ g => by cases g) (fun j n got g hw => by cases g; exact hno _ _ hw) hv hp
        · split at hs
          · rename_i hq _
            split at hs
            · rename_i hp
              cases hs
              exact .pushes h hq hv hp.1
            · cases hs
          · cases hs
    · rename_i h1 h2
      split at hs
      · rename_i hp
        cases hs
        exact .other h (fun i es g => h1 i es g) (fun i n got g _ => h2 i g) hv hp
      · cases hs

/-- A run of a connected sampler. -/
def linkRun (c : SamplerCfg) (wr : Nat → List Entry) : ClientSampler × Links → List (Nat × Event) → Option (ClientSampler × Links)
  | x, [] => some x
  | x, (q, e) :: es =>
    match linkStep c wr x q e with
    | none => none
    | some x' => linkRun c wr x' es

theorem linkRun_linked {c : SamplerCfg} {now : Int} {wr : Nat → List Entry} : ∀ {es : List (Nat × Event)} {evs : List Event}
    {x x' : ClientSampler × Links}, Linked c now wr evs x.1 x.2 → linkRun c wr x es = some x' → Linked c now wr (evs ++ es.map Prod.snd) x'.1 x'.2
  | [], evs, x, x', h, hs => by cases hs; simpa using h
  | (q, e) :: es, evs, x, x', h, hs => by
    simp only [linkRun] at hs
    split at hs
    · cases hs
    · rename_i x1 h1
      have := linkRun_linked (linkStep_linked h h1) hs
      simpa using this

end ClientSampler

namespace EndToEndDemo
open TrajWriter.TrajDemo

/-- The writer makes an item of three columns over three chunks, as in the example of C33. -/
def W : TrajWriter := writer (.constant 3 4 false)

def E : List TrajWriter.Event := abc ++ .createItem "t" (.val 1) fine :: steps 40 good

/-- What it has sent. -/
def str : List Msg := (W.run E).msgs

/-- The contents of the chunks. -/
def content (k : Key) : ChunkData := ((str.flatMap Msg.chunks).find? fun ch => ch.key == k).getD (InsertDemo.chunk k)

theorem content_key (k : Key) : (content k).key = k := by
  unfold content
  cases h : (str.flatMap Msg.chunks).find? fun ch => ch.key == k with
  | none => rfl
  | some ch =>
    have := List.find?_some h
    simpa using this

def wire : Wire := ⟨fun e => e.data.length, fun _ => 1, 2, content⟩

def table : Config := ⟨10, 0, .fifo, .fifo, 1, 1, -100, 100, by decide⟩

def cfgs : AMap String Config := ⟨[("t", table)], by decide⟩

/-- The server gets the requests on the stream 5, inserts the item, and gives two samples of it to the stream 7. -/
def evs : List Service.Event :=
  [.insert (.start 5)] ++ str.map (fun m => .insert (.request 5 m.toReq)) ++
  [.insert (.insert 5 0 (draw 0)), .insert (.confirm 5 true), .sample (.start 7), .sample (.request 7 ⟨"t", 1, some 5000, -1⟩),
   .sample (.sample 7 1 fun _ => draw 0), .sample (.write 7 true), .sample (.write 7 true), .sample (.next 7),
   .sample (.request 7 ⟨"t", 1, some 5000, -1⟩), .unary (.mutate "t" [(1, .val 3)] []), .sample (.sample 7 1 fun _ => draw 0),
   .sample (.write 7 true)]

/-- The sampler gets the two messages of the first sample one after the other and returns it; of the second sample only the first message has come. -/
def cev (wr : List Entry) : List (Nat × ClientSampler.Event) :=
  [(0, .work 0), (7, .work 0), (0, .write 0 none), (0, .response 0 (wr.take 1)), (0, .call 0 .trajectory),
   (0, .response 0 ((wr.drop 1).take 1)), (0, .work 0), (0, .pop 0), (0, .finish 0), (0, .write 0 none), (0, .response 0 (wr.drop 2))]

def cfg : SamplerCfg := SamplerDemo.grpc 10 1 none

/-- The events are steps of the server, and the contents are those of the writer. -/
theorem contents : Service.Contents wire evs := by
  have hin : ∀ s r, r ∈ Service.insertRequests s evs → r ∈ str.map Msg.toReq := by
    intro s r hr
    simp only [Service.insertRequests, SyncServer.requests, List.filterMap_filterMap, List.mem_filterMap] at hr
    obtain ⟨e, he, g⟩ := hr
    simp only [evs, List.mem_append, List.mem_map, List.mem_cons, List.not_mem_nil, or_false] at he
    rcases he with (rfl | ⟨m, hm, rfl⟩) | rfl | rfl | rfl | rfl | rfl | rfl | rfl | rfl | rfl | rfl | rfl | rfl
    case inl.inr =>
      simp only [Option.bind_some] at g
      split at g
      · cases g; exact List.mem_map_of_mem hm
      · cases g
    all_goals cases g
  have hall : ∀ r ∈ str.map Msg.toReq, ∀ ch ∈ r.chunks, content ch.key = ch := by decide +kernel
  exact fun s r hr ch hc => hall r (hin s r hr) ch hc

/-- All hypotheses of C89 are met: a trajectory is returned, and by the theorem it is the one that the writer was given. -/
theorem demo : ∃ v u L out, (Service.init (newTables cfgs)).run wire evs = some v ∧ ClientSampler.Linked cfg 0 v.written ((cev (v.written 7)).map Prod.snd) u L ∧
    (∀ e ∈ (cev (v.written 7)).map Prod.snd, ClientSampler.NoTimesteps e) ∧ (∀ q ∈ L.opened, ∀ r ∈ Service.sampleRequests q evs, r ∈ u.sent) ∧
    .trajectory out ∈ u.log ∧ (v.got 7).length = 2 ∧ (L.came 7).length = 1 ∧
    Service.insertRequests 5 evs <+: str.map Msg.toReq ∧ str ∈ (W.run E).streams ∧
    out = [Tensor.stack .int32 [1] [row 6, row 7], Tensor.stack .int32 [1] [row 17, row 15, row 5], row 6] := by
  have h : (((Service.init (newTables cfgs)).run wire evs).any fun v =>
      (ClientSampler.linkRun cfg v.written (ClientSampler.init cfg 0, .none) (cev (v.written 7))).any fun x =>
        decide ((∀ q ∈ x.2.opened, ∀ r ∈ Service.sampleRequests q evs, r ∈ x.1.sent) ∧
          .trajectory [Tensor.stack .int32 [1] [row 6, row 7], Tensor.stack .int32 [1] [row 17, row 15, row 5], row 6] ∈ x.1.log ∧
          (v.got 7).length = 2 ∧ (x.2.came 7).length = 1)) = true := by decide +kernel
  rw [Option.any_eq_true] at h
  obtain ⟨v, hv, h⟩ := h
  rw [Option.any_eq_true] at h
  obtain ⟨⟨u, L⟩, hu, h⟩ := h
  simp only [decide_eq_true_eq] at h
  refine ⟨v, u, L, _, hv, ?_, ?_, h.1, h.2.1, h.2.2.1, h.2.2.2, ?_, List.mem_append_right _ (by simp [str]), rfl⟩
  · simpa using ClientSampler.linkRun_linked (x := (ClientSampler.init cfg 0, .none)) .init hu
  · intro e he
    simp only [cev, List.map_cons, List.map_nil, List.mem_cons, List.not_mem_nil, or_false] at he
    rcases he with rfl | rfl | rfl | rfl | rfl | rfl | rfl | rfl | rfl | rfl | rfl <;> simp [ClientSampler.NoTimesteps]
  · have : Service.insertRequests 5 evs = str.map Msg.toReq := by decide +kernel
    rw [this]
    exact List.prefix_rfl

end EndToEndDemo
end Verif
