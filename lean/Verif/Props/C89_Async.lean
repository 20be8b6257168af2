import Verif.Proofs.AsyncService
import Verif.Props.C109_TFSample
/-
C89, C100 and C109 for the asynchronous server.
-/
namespace Verif
namespace AsyncService

/-- C89, asynchronous server: after any schedule of any number of insert streams, sample streams, table workers, callbacks and other calls (also if the process has been
ended by a failed check), every sample that was taken from a table for a sample stream is one of an item that some client sent, for this table, with this key and this
trajectory; the chunks that are sent with the sample are all those of the trajectory, and the client sent them on the same stream as the item. What a client of the
sample stream makes of the messages are the samples taken for it, in order, each at most once. -/
theorem C89_async_origin {w : Wire} (hw : ∀ k, (w.content k).key = k) {cfgs : AMap String Config} {evs : List Event} {v : AsyncService}
    (hr : (AsyncService.init (newTables cfgs)).run w evs = some v) (hp : Proper cfgs evs) (hc : Contents w evs) (q : Nat) :
    (∀ y ∈ v.got q, (∃ r ∈ sampleRequests q evs, r.table = y.1) ∧
      Sent evs y.1 y.2.item.key (y.2.sent w).traj (y.2.sent w).chunks) ∧
    clientSamples (v.written q) <+: localSamples w (v.got q) :=
  (flow hw hr hp).origin hc q

/-- C89 (partial), writer and asynchronous server, as `Service.C89_written_partial`. -/
theorem C89_async_written_partial {w : Wire} (hw : ∀ k, (w.content k).key = k) {cfgs : AMap String Config} {evs : List Event} {v : AsyncService}
    (hr : (AsyncService.init (newTables cfgs)).run w evs = some v) (hp : Proper cfgs evs) (hc : Contents w evs) {q : Nat} {y : String × Sampled}
    (hy : y ∈ v.got q) :
    ∃ s, (∃ r ∈ insertRequests s evs, ∃ it, r.item = some it ∧ it.table = y.1 ∧ it.key = y.2.item.key) ∧
      ∀ (W : TrajWriter) (E : List TrajWriter.Event) (str : List Msg), W.Started → (∀ e ∈ E, e.Valid) → str ∈ (W.run E).streams →
        insertRequests s evs <+: str.map Msg.toReq →
        ∃ pre cols, W.Made E y.1 y.2.item.key pre cols ∧
          ((∀ col ∈ cols, (W.run pre).Contiguous col.refs) → ∀ values, W.Gives pre cols values →
            ∃ smp out, asSampleLocal (y.2.sent w) = .ok smp ∧ smp.asTrajectory = .ok out ∧ TrajWriter.ReadsBack cols values out) :=
  (flow hw hr hp).made hc hy

/-- C89, sampler and asynchronous server, as `Service.C89_sampler`. -/
theorem C89_async_sampler {w : Wire} (hw : ∀ k, (w.content k).key = k) {cfgs : AMap String Config} {evs : List Event} {v : AsyncService}
    (hr : (AsyncService.init (newTables cfgs)).run w evs = some v) (hp : Proper cfgs evs) {c : SamplerCfg} {t : String} {a b : Int}
    (hsrc : c.source = .grpc t a b) {now : Int} {cev : List ClientSampler.Event} {u : ClientSampler} {L : Links}
    (hl : ClientSampler.Linked c now v.written cev u L) :
    L.opened.Nodup ∧ u.arrived.Perm (L.opened.flatMap L.came) ∧ ∀ q, (L.came q).map .ok <+: localSamples w (v.got q) :=
  (flow hw hr hp).sampler hsrc hl

/-- C89 (partial), from writers through the asynchronous server to a sampler, as `Service.C89_end_to_end_partial`. -/
theorem C89_async_end_to_end_partial {w : Wire} (hw : ∀ k, (w.content k).key = k) {cfgs : AMap String Config} {evs : List Event} {v : AsyncService}
    (hr : (AsyncService.init (newTables cfgs)).run w evs = some v) (hp : Proper cfgs evs) (hc : Contents w evs) {c : SamplerCfg} (hcv : c.Valid)
    {t : String} {a b : Int} (hsrc : c.source = .grpc t a b) {now : Int} {cev : List ClientSampler.Event} {u : ClientSampler} {L : Links}
    (hl : ClientSampler.Linked c now v.written cev u L) (hnt : ∀ e ∈ cev, ClientSampler.NoTimesteps e)
    (hask : ∀ q ∈ L.opened, ∀ r ∈ sampleRequests q evs, r ∈ u.sent) {out : List Tensor} (ho : .trajectory out ∈ u.log) :
    ∃ s key, (∃ r ∈ insertRequests s evs, ∃ it, r.item = some it ∧ it.table = t ∧ it.key = key) ∧
      ∀ (W : TrajWriter) (E : List TrajWriter.Event) (str : List Msg), W.Started → (∀ e ∈ E, e.Valid) → str ∈ (W.run E).streams →
        insertRequests s evs <+: str.map Msg.toReq →
        ∃ pre cols, W.Made E t key pre cols ∧
          ((∀ col ∈ cols, (W.run pre).Contiguous col.refs) → ∀ values, W.Gives pre cols values → TrajWriter.ReadsBack cols values out) :=
  (flow hw hr hp).end_to_end hc hcv hsrc hl hnt hask ho

/-- C100 (partial), old writers and asynchronous server, as `Service.C100_sample_partial`. -/
theorem C100_async_sample_partial {ι : Type} {w : Wire} (hw : ∀ k, (w.content k).key = k) {cfgs : AMap String Config} {evs : List Event} {v : AsyncService}
    (hr : (AsyncService.init (newTables cfgs)).run w evs = some v) (hp : Proper cfgs evs) (hc : Contents w evs) {users : ι → Writer.Use}
    (hu : WrittenBy (fun s => insertRequests s evs) users) {q : Nat} {y : String × Sampled} (hy : y ∈ v.got q) :
    ∃ u steps smp, (users u).Asked y.1 steps ∧ asSampleLocal (y.2.sent w) = .ok smp ∧ smp.asTrajectory = .ok (stackSteps (users u).spec steps) ∧
      smp.asBatchedTimesteps = .ok (Int.ofNat steps.length, stackSteps (users u).spec steps) ∧
      ∀ c out s', ClientSampler.Reads c smp out s' → ClientSampler.GivesSteps c steps out ∧ (s'.isEndOfSample = true → out.length = steps.length) :=
  (flow hw hr hp).step_sample hc hu hy

/-- C100 (partial), old writers through the asynchronous server to a sampler that returns whole samples, as `Service.C100_samples_partial`. -/
theorem C100_async_samples_partial {ι : Type} {w : Wire} (hw : ∀ k, (w.content k).key = k) {cfgs : AMap String Config} {evs : List Event} {v : AsyncService}
    (hr : (AsyncService.init (newTables cfgs)).run w evs = some v) (hp : Proper cfgs evs) (hc : Contents w evs) {users : ι → Writer.Use}
    (hu : WrittenBy (fun s => insertRequests s evs) users) {c : SamplerCfg} (hcv : c.Valid) {t : String} {a b : Int} (hsrc : c.source = .grpc t a b)
    {now : Int} {cev : List ClientSampler.Event} {s : ClientSampler} {L : Links} (hl : ClientSampler.Linked c now v.written cev s L)
    (hnt : ∀ e ∈ cev, ClientSampler.NoTimesteps e) (hask : ∀ q ∈ L.opened, ∀ r ∈ sampleRequests q evs, r ∈ s.sent) {o : SampleOut} (ho : o ∈ s.log) :
    (∃ u steps, (users u).Asked t steps ∧ (o = .trajectory (stackSteps (users u).spec steps) ∨
      o = .batched (Int.ofNat steps.length) (stackSteps (users u).spec steps))) ∨ ∃ e, o = .error e :=
  (flow hw hr hp).step_samples hc hu hcv hsrc hl hnt hask ho

/-- C100 (partial), old writers through the asynchronous server to a sampler that returns timesteps, as `Service.C100_timesteps_partial`. -/
theorem C100_async_timesteps_partial {ι : Type} {w : Wire} (hw : ∀ k, (w.content k).key = k) {cfgs : AMap String Config} {evs : List Event} {v : AsyncService}
    (hr : (AsyncService.init (newTables cfgs)).run w evs = some v) (hp : Proper cfgs evs) (hc : Contents w evs) {users : ι → Writer.Use}
    (hu : WrittenBy (fun s => insertRequests s evs) users) {c : SamplerCfg} (hcv : c.Valid) {t : String} {a b : Int} (hsrc : c.source = .grpc t a b)
    {now : Int} {cev : List ClientSampler.Event} {s : ClientSampler} {L : Links} (hl : ClientSampler.Linked c now v.written cev s L)
    (hrch : ClientSampler.Reach c now (fun v e => ClientSampler.Faithful v e ∧ ClientSampler.OnlyTimesteps e) cev s)
    (hask : ∀ q ∈ L.opened, ∀ r ∈ sampleRequests q evs, r ∈ s.sent) :
    ∃ out rest, s.log = out ++ rest ∧ ClientSampler.StepLog c (fun steps => ∃ u, (users u).Asked t steps) out ∧
      (rest = [] ∨ ∃ u steps, (users u).Asked t steps ∧ ClientSampler.GivesSteps c steps rest) :=
  (flow hw hr hp).timesteps hc hu hcv hsrc hl hrch hask

open TFSample ClientSampler in
/-- C109 (partial), from old writers through the asynchronous server to a graph, as `TFSample.C109_item_partial`. -/
theorem C109_async_item_partial {ι : Type} {w : Wire} (hw : ∀ k, (w.content k).key = k) {cfgs : AMap String Config} {evs : List AsyncService.Event}
    {srv : AsyncService} (hr : (AsyncService.init (newTables cfgs)).run w evs = some srv) (hp : AsyncService.Proper cfgs evs) (hcon : Contents w evs)
    {users : ι → Writer.Use} (hu : WrittenBy (fun s => insertRequests s evs) users)
    {table : String} {sigs : Res Signatures} {c : SamplerCfg} (hm : TFSample.cfg table none sigs = .ok c) {now : Int} {cev : List ClientSampler.Event}
    {v : ClientSampler} {L : Links} (hl : Linked c now srv.written cev v L) (h : TFSample.Run c now cev v)
    (hask : ∀ q ∈ L.opened, ∀ r ∈ sampleRequests q evs, r ∈ v.sent)
    {dtypes : PTree DType} (hd : dtypes.WF) {out : ReplaySample} (hs : TFSample.sample dtypes v = some (.ok out)) :
    ∃ q y u steps step, y ∈ srv.got q ∧ y.1 = table ∧ out.info = ⟨y.2.item.key, y.2.probability, y.2.tableSize.toNat, y.2.priority⟩ ∧
      (users u).Asked table steps ∧ steps.head? = some step ∧ Nested dtypes step out.data ∧
      ((∀ (t : String) (n : Int) (p : Pri) (as : List Answer), (Writer.Call.createItem t n p, as) ∈ (users u).calls ++ [(users u).last] → n = 1) → steps = [step]) :=
  TFSample.item_of (flow hw hr hp) hcon hu hm hl h hask hd hs

/-! ### Examples -/

namespace Demo

def work (n : Nat) (now : Int) : List Event := List.replicate n (.table "t" (.work now (draw 0)))

def read (m : Msg) : Event := .insert (.read 5 (some m.toReq))

def ask (now : Int) : Event := .sample (.read 7 (some ⟨"t", 1, some 5000, -1⟩) now)

def onlyFive (e : Event) : Bool :=
  match e with
  | .insert (.read s _) => s == 5
  | _ => true

/-- All requests come on the stream 5. -/
theorem only {evs : List Event} (h : evs.all onlyFive = true) {s : Nat} (hs : s ≠ 5) : insertRequests s evs = [] := by
  unfold insertRequests
  rw [List.filterMap_eq_nil_iff]
  intro e he
  have := List.all_eq_true.mp h e he
  split
  · simp only [onlyFive, beq_iff_eq] at this
    rw [if_neg (by omega)]
  · rfl

theorem of_stream {evs : List Event} {l : List InsertReq} (h : evs.all onlyFive = true) (h5 : insertRequests 5 evs = l) (s : Nat) : insertRequests s evs <+: l := by
  by_cases hs : s = 5
  · rw [hs, h5]
    exact List.prefix_rfl
  · rw [only h hs]
    exact List.nil_prefix

theorem proper (evs : List Event) : Proper EndToEndDemo.cfgs evs := by
  have h : ∀ name c, EndToEndDemo.cfgs.get? name = some c → ∀ p, c.admits p := by
    intro name c hc p
    simp only [EndToEndDemo.cfgs, AMap.get?, List.lookup_cons] at hc
    split at hc
    · cases hc; exact ⟨rfl, rfl⟩
    · cases hc
  exact ⟨fun s r _ it _ c hc => h _ c hc _, fun name us ds _ c hc u _ => h _ c hc _⟩

open EndToEndDemo TrajWriter.TrajDemo in
/-- The server gets the item of the example of C89 on the stream 5; the worker of the table inserts it, and the stream, which had to wait, is called back. Then the worker
takes two samples of it for the stream 7, which are sent; in between the priority is changed. -/
def evs : List Event :=
  [.insert (.start 5)] ++ str.map read ++ work 14 10 ++
  [.deliver "t" 0 20, .insert (.call "t" 0), .insert (.write 5 true), .sample (.start 7), ask 30, .table "t" .wake] ++ work 15 40 ++
  [.deliver "t" 0 50, .sample (.next 7), .sample (.write 7 true), .sample (.more 7 50), ask 60, .table "t" (.mutate [(1, .val 3)] []), .table "t" .wake] ++ work 15 60 ++
  [.deliver "t" 0 70, .sample (.write 7 true)]

/-- The sampler gets the first sample and returns it; the response with the second one has come, too. -/
def cev (wr : List Entry) : List (Nat × ClientSampler.Event) :=
  [(0, .work 0), (7, .work 0), (0, .write 0 none), (0, .call 0 .trajectory), (0, .response 0 (wr.take 1)), (0, .work 0), (0, .pop 0), (0, .finish 0),
   (0, .write 0 none), (0, .response 0 (wr.drop 1))]

theorem contents : Contents EndToEndDemo.wire evs := by
  have hall : ∀ r ∈ EndToEndDemo.str.map Msg.toReq, ∀ ch ∈ r.chunks, EndToEndDemo.content ch.key = ch := by decide +kernel
  exact fun s r hr ch hc => hall r ((of_stream (by decide +kernel) (by decide +kernel) s).subset hr) ch hc

open EndToEndDemo TrajWriter.TrajDemo in
/-- All hypotheses of C89 are met: a trajectory is returned, and by the theorem it is the one that the writer was given. -/
theorem demo : ∃ v u L out, (AsyncService.init (newTables cfgs)).run wire Demo.evs = some v ∧
    ClientSampler.Linked EndToEndDemo.cfg 0 v.written ((Demo.cev (v.written 7)).map Prod.snd) u L ∧
    (∀ e ∈ (Demo.cev (v.written 7)).map Prod.snd, ClientSampler.NoTimesteps e) ∧ (∀ q ∈ L.opened, ∀ r ∈ sampleRequests q Demo.evs, r ∈ u.sent) ∧
    .trajectory out ∈ u.log ∧ (v.got 7).length = 2 ∧ (L.came 7).length = 1 ∧
    insertRequests 5 Demo.evs <+: str.map Msg.toReq ∧ str ∈ (W.run E).streams ∧
    out = [Tensor.stack .int32 [1] [row 6, row 7], Tensor.stack .int32 [1] [row 17, row 15, row 5], row 6] := by
  have h : (((AsyncService.init (newTables cfgs)).run wire Demo.evs).any fun v =>
      (ClientSampler.linkRun EndToEndDemo.cfg v.written (ClientSampler.init EndToEndDemo.cfg 0, .none) (Demo.cev (v.written 7))).any fun x =>
        decide ((∀ q ∈ x.2.opened, ∀ r ∈ sampleRequests q Demo.evs, r ∈ x.1.sent) ∧
          .trajectory [Tensor.stack .int32 [1] [row 6, row 7], Tensor.stack .int32 [1] [row 17, row 15, row 5], row 6] ∈ x.1.log ∧
          (v.got 7).length = 2 ∧ (x.2.came 7).length = 1)) = true := by decide +kernel
  rw [Option.any_eq_true] at h
  obtain ⟨v, hv, h⟩ := h
  rw [Option.any_eq_true] at h
  obtain ⟨⟨u, L⟩, hu, h⟩ := h
  simp only [decide_eq_true_eq] at h
  refine ⟨v, u, L, _, hv, ?_, ?_, h.1, h.2.1, h.2.2.1, h.2.2.2, of_stream (by decide +kernel) (by decide +kernel) 5, List.mem_append_right _ (by simp [str]), rfl⟩
  · simpa using ClientSampler.linkRun_linked (x := (ClientSampler.init EndToEndDemo.cfg 0, .none)) .init hu
  · intro e he
    simp only [Demo.cev, List.map_cons, List.map_nil, List.mem_cons, List.not_mem_nil, or_false] at he
    rcases he with rfl | rfl | rfl | rfl | rfl | rfl | rfl | rfl | rfl | rfl <;> simp [ClientSampler.NoTimesteps]

/-- The two items of the example of C100 come on the stream 5; the second one is read only when the worker has inserted the first one. The stream 7 is given a sample of
each, and the first item is deleted in between. -/
def stepEvs : List Event :=
  [.insert (.start 5)] ++ (StepsDemo.str.take 1).map read ++ work 14 10 ++ [.deliver "t" 0 20, .insert (.call "t" 0), .insert (.write 5 true)] ++
  (StepsDemo.str.drop 1).map read ++ [.table "t" .wake] ++ work 15 20 ++
  [.deliver "t" 0 20, .insert (.call "t" 0), .insert (.write 5 true), .sample (.start 7), ask 30, .table "t" .wake] ++ work 15 40 ++
  [.deliver "t" 0 50, .sample (.next 7), .sample (.write 7 true), .sample (.more 7 50), ask 60, .table "t" (.mutate [] [3]), .table "t" .wake] ++ work 15 60 ++
  [.deliver "t" 0 70, .sample (.write 7 true)]

theorem step_contents : Contents StepsDemo.wire stepEvs := by
  have hall : ∀ r ∈ StepsDemo.str.map Msg.toReq, ∀ ch ∈ r.chunks, StepsDemo.content ch.key = ch := by decide +kernel
  exact fun s r hr ch hc => hall r ((of_stream (by decide +kernel) (by decide +kernel) s).subset hr) ch hc

theorem from_writers : WrittenBy (fun s => insertRequests s stepEvs) fun _ : Unit => StepsDemo.use := fun s =>
  ⟨(), StepsDemo.str, List.mem_append_right _ (List.mem_singleton.mpr rfl), of_stream (by decide +kernel) (by decide +kernel) s⟩

/-- The sampler returns the first sample step by step, and the first step of the second sample. -/
def stepCev (wr : List Entry) : List (Nat × ClientSampler.Event) :=
  [(0, .work 0), (7, .work 0), (0, .write 0 none), (0, .response 0 (wr.take 1)), (0, .call 0 .timestep), (0, .work 0), (0, .pop 0), (0, .finish 0),
   (0, .call 1 .timestep), (0, .finish 1), (0, .write 0 none), (0, .call 2 .timestep), (0, .response 0 (wr.drop 1)),
   (0, .work 0), (0, .pop 2), (0, .finish 2)]

open ClientSampler SampleOrderDemo StepsDemo in
/-- The hypotheses of `C100_async_timesteps_partial` are met, and this is what the sampler returns. -/
theorem step_demo : ∃ v u L, (AsyncService.init (newTables EndToEndDemo.cfgs)).run wire stepEvs = some v ∧
    Linked EndToEndDemo.cfg 0 v.written ((stepCev (v.written 7)).map Prod.snd) u L ∧
    Reach EndToEndDemo.cfg 0 (fun v e => Faithful v e ∧ OnlyTimesteps e) ((stepCev (v.written 7)).map Prod.snd) u ∧
    (∀ q ∈ L.opened, ∀ r ∈ AsyncService.sampleRequests q stepEvs, r ∈ u.sent) ∧
    u.log = [.timestep [Writer.Demo.x 2] false, .timestep [Writer.Demo.x 3] true, .timestep [Writer.Demo.x 2] false] := by
  have h : (((AsyncService.init (newTables EndToEndDemo.cfgs)).run wire stepEvs).any fun v =>
      (checkedRun EndToEndDemo.cfg v.written timestepsB (ClientSampler.init EndToEndDemo.cfg 0, .none) (stepCev (v.written 7))).any fun x =>
        decide ((∀ q ∈ x.2.opened, ∀ r ∈ AsyncService.sampleRequests q stepEvs, r ∈ x.1.sent) ∧
          x.1.log = [.timestep [Writer.Demo.x 2] false, .timestep [Writer.Demo.x 3] true, .timestep [Writer.Demo.x 2] false])) = true := by decide +kernel
  rw [Option.any_eq_true] at h
  obtain ⟨v, hv, h⟩ := h
  rw [Option.any_eq_true] at h
  obtain ⟨⟨u, L⟩, hu, h⟩ := h
  simp only [decide_eq_true_eq] at h
  obtain ⟨h1, h2⟩ := checkedRun_ok timesteps_of (x := (ClientSampler.init EndToEndDemo.cfg 0, .none)) .init .init hu
  exact ⟨v, u, L, hv, by simpa using h1, by simpa using h2, h.1, h.2⟩

/-- The server of `C109_async_item_partial`: the request is the one of the op, without a timeout. -/
def opEvs : List Event :=
  [.insert (.start 5)] ++ (StepsDemo.str.take 1).map read ++ work 14 10 ++ [.deliver "t" 0 20, .insert (.call "t" 0), .insert (.write 5 true)] ++
  (StepsDemo.str.drop 1).map read ++ [.table "t" .wake] ++ work 15 20 ++
  [.deliver "t" 0 20, .insert (.call "t" 0), .insert (.write 5 true), .sample (.start 7), .sample (.read 7 (some ⟨"t", 1, some (-1), -1⟩) 30), .table "t" .wake] ++
  work 15 40 ++ [.deliver "t" 0 50, .sample (.next 7), .sample (.write 7 true)]

open ClientSampler StepsDemo TFSample TFSample.Demo in
/-- The hypotheses of `C109_async_item_partial` are met. -/
theorem op_demo : ∃ srv v L out, (AsyncService.init (newTables EndToEndDemo.cfgs)).run wire opEvs = some srv ∧
    AsyncService.Contents wire opEvs ∧ WrittenBy (fun s => AsyncService.insertRequests s opEvs) (fun _ : Unit => use) ∧
    Linked config 0 srv.written ((TFSample.Demo.cev (srv.written 7)).map Prod.snd) v L ∧ Run config 0 ((TFSample.Demo.cev (srv.written 7)).map Prod.snd) v ∧
    (∀ q ∈ L.opened, ∀ r ∈ AsyncService.sampleRequests q opEvs, r ∈ v.sent) ∧ sample dtypes v = some (.ok out) ∧
    found (some (.ok out)) = some (⟨3, 1, 2, .val 7⟩, some (Writer.Demo.x 2)) := by
  have hs := of_stream (evs := opEvs) (l := StepsDemo.str.map Msg.toReq) (by decide +kernel) (by decide +kernel)
  have hall : ∀ r ∈ StepsDemo.str.map Msg.toReq, ∀ ch ∈ r.chunks, StepsDemo.content ch.key = ch := by decide +kernel
  have h : (((AsyncService.init (newTables EndToEndDemo.cfgs)).run wire opEvs).any fun srv =>
      (checkedRun config srv.written allowedB (ClientSampler.init config 0, .none) (TFSample.Demo.cev (srv.written 7))).any fun x =>
        decide ((∀ q ∈ x.2.opened, ∀ r ∈ AsyncService.sampleRequests q opEvs, r ∈ x.1.sent) ∧
          found (sample dtypes x.1) = some (⟨3, 1, 2, .val 7⟩, some (Writer.Demo.x 2)))) = true := by decide +kernel
  rw [Option.any_eq_true] at h
  obtain ⟨srv, hv, h⟩ := h
  rw [Option.any_eq_true] at h
  obtain ⟨⟨v, L⟩, hu, h⟩ := h
  simp only [decide_eq_true_eq] at h
  obtain ⟨h1, h2⟩ := checkedRun_ok allowed_of (x := (ClientSampler.init config 0, .none)) .init .init hu
  obtain ⟨k1, k2⟩ := h
  obtain ⟨out, ho⟩ : ∃ out, sample dtypes v = some (.ok out) := by
    unfold found at k2
    split at k2
    · exact ⟨_, by assumption⟩
    · cases k2
  exact ⟨srv, v, L, out, hv, fun s r hr ch hc => hall r ((hs s).subset hr) ch hc,
    fun s => ⟨(), StepsDemo.str, List.mem_append_right _ (List.mem_singleton.mpr rfl), hs s⟩,
    by simpa using h1, by simpa [Run] using h2, k1, ho, by rw [← ho]; exact k2⟩

end Demo

end AsyncService
end Verif
