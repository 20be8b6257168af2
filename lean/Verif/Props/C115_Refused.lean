import Verif.Spec.Refused
import Verif.Proofs.Refused
import Verif.Props.C89_Async
import Verif.Props.C100_Steps
import Verif.Props.C33_Columns
/-
C115: what the signature check of a writer lets through is not refused when it is sampled.
-/
namespace Verif
namespace Service

/-- **C115 (partial), trajectory writers.** Let all that is inserted come from trajectory writers that know the signature of the table, and let the sampler have the same
signature (behind its four own columns, see C61). Then no sample is refused: the workers can unpack what comes, and an error is returned only when the queue has been
closed. Missing: columns whose neighbours are not in order within a chunk, see `C115_order_false`; servers that get items from other clients too. -/
theorem C115_trajectories_partial {ι : Type} {w : Wire} (hw : ∀ k, (w.content k).key = k) {cfgs : AMap String Config} {evs : List Event} {v : Service}
    (hr : (Service.init (newTables cfgs)).run w evs = some v) (hc : Contents w evs) {users : ι → TrajWriter.Use}
    (hu : TrajWrittenBy (insertRequests · evs) users) {c : SamplerCfg} (hcv : c.Valid) {t : String} {a b : Int} (hsrc : c.source = .grpc t a b)
    {sig four : List TensorSpec} (h4 : four.length = 4) (hspec : c.spec = some (four ++ sig)) (hk : ∀ u, Knows (users u).writer.sig t sig) {now : Int}
    {cev : List ClientSampler.Event} {s : ClientSampler} {L : Links} (hl : ClientSampler.Linked c now v.written cev s L)
    (ho : ∀ e ∈ cev, ClientSampler.OnlyTrajectories e) (hask : ∀ q ∈ L.opened, ∀ r ∈ sampleRequests q evs, r ∈ s.sent) :
    ClientSampler.NoneRefused s ∧ ClientSampler.AllUnpacked L :=
  (flow hw hr).traj_sampler hc hu hcv hsrc h4 hspec hk hl ho hask

/-- **C115 (partial), old writers.** The same for the old writer and a sampler that returns timesteps or batches of them. -/
theorem C115_steps_partial {ι : Type} {w : Wire} (hw : ∀ k, (w.content k).key = k) {cfgs : AMap String Config} {evs : List Event} {v : Service}
    (hr : (Service.init (newTables cfgs)).run w evs = some v) (hc : Contents w evs) {users : ι → Writer.Use} (hu : FromWriters evs users)
    {c : SamplerCfg} (hcv : c.Valid) {t : String} {a b : Int} (hsrc : c.source = .grpc t a b)
    {sig four : List TensorSpec} (h4 : four.length = 4) (hspec : c.spec = some (four ++ sig)) (hk : ∀ u, Knows (users u).writer.sigs t sig) {now : Int}
    {cev : List ClientSampler.Event} {s : ClientSampler} {L : Links} (hl : ClientSampler.Linked c now v.written cev s L)
    (hrch : ClientSampler.Reach c now (fun v e => ClientSampler.Faithful v e ∧ ClientSampler.NoTrajectories e) cev s)
    (hask : ∀ q ∈ L.opened, ∀ r ∈ sampleRequests q evs, r ∈ s.sent) : ClientSampler.NoneRefused s ∧ ClientSampler.AllUnpacked L :=
  (flow hw hr).steps_sampler hc hu hcv hsrc h4 hspec hk hl hrch hask

end Service

namespace AsyncService

/-- **C115 (partial), trajectory writers, asynchronous server**, as `Service.C115_trajectories_partial`. -/
theorem C115_async_trajectories_partial {ι : Type} {w : Wire} (hw : ∀ k, (w.content k).key = k) {cfgs : AMap String Config} {evs : List Event}
    {v : AsyncService} (hr : (AsyncService.init (newTables cfgs)).run w evs = some v) (hp : Proper cfgs evs) (hc : Contents w evs)
    {users : ι → TrajWriter.Use} (hu : TrajWrittenBy (fun s => insertRequests s evs) users) {c : SamplerCfg} (hcv : c.Valid) {t : String} {a b : Int}
    (hsrc : c.source = .grpc t a b) {sig four : List TensorSpec} (h4 : four.length = 4) (hspec : c.spec = some (four ++ sig))
    (hk : ∀ u, Knows (users u).writer.sig t sig) {now : Int} {cev : List ClientSampler.Event} {s : ClientSampler} {L : Links}
    (hl : ClientSampler.Linked c now v.written cev s L) (ho : ∀ e ∈ cev, ClientSampler.OnlyTrajectories e)
    (hask : ∀ q ∈ L.opened, ∀ r ∈ sampleRequests q evs, r ∈ s.sent) : ClientSampler.NoneRefused s ∧ ClientSampler.AllUnpacked L :=
  (flow hw hr hp).traj_sampler hc hu hcv hsrc h4 hspec hk hl ho hask

/-- **C115 (partial), old writers, asynchronous server**, as `Service.C115_steps_partial`. -/
theorem C115_async_steps_partial {ι : Type} {w : Wire} (hw : ∀ k, (w.content k).key = k) {cfgs : AMap String Config} {evs : List Event}
    {v : AsyncService} (hr : (AsyncService.init (newTables cfgs)).run w evs = some v) (hp : Proper cfgs evs) (hc : Contents w evs)
    {users : ι → Writer.Use} (hu : WrittenBy (fun s => insertRequests s evs) users) {c : SamplerCfg} (hcv : c.Valid) {t : String} {a b : Int}
    (hsrc : c.source = .grpc t a b) {sig four : List TensorSpec} (h4 : four.length = 4) (hspec : c.spec = some (four ++ sig))
    (hk : ∀ u, Knows (users u).writer.sigs t sig) {now : Int} {cev : List ClientSampler.Event} {s : ClientSampler} {L : Links}
    (hl : ClientSampler.Linked c now v.written cev s L)
    (hrch : ClientSampler.Reach c now (fun v e => ClientSampler.Faithful v e ∧ ClientSampler.NoTrajectories e) cev s)
    (hask : ∀ q ∈ L.opened, ∀ r ∈ sampleRequests q evs, r ∈ s.sent) : ClientSampler.NoneRefused s ∧ ClientSampler.AllUnpacked L :=
  (flow hw hr hp).steps_sampler hc hu hcv hsrc h4 hspec hk hl hrch hask

end AsyncService

/-! ### Examples -/

namespace RefusedDemo
open TrajWriter.TrajDemo (abc fine good row writer)

/-- A table with three columns of any length, or one of them. -/
def sig : List TensorSpec := [⟨.int32, some [none, some 1]⟩, ⟨.int32, some [none, some 1]⟩, ⟨.int32, some [some 1]⟩]

/-- The writer of the example of C89, with the signature. -/
def W (sig : List TensorSpec) : TrajWriter := { writer (.constant 3 4 false) with sig := some (AMap.insert .empty "t" (some sig)) }

def E (cols : List TrajCol) : List TrajWriter.Event := abc ++ .createItem "t" (.val 1) cols :: TrajWriter.TrajDemo.steps 40 good

theorem started (sig : List TensorSpec) : (W sig).Started where
  new := by
    have hv : (W sig).opts.validate = .ok () := by
      show ChunkerOpts.validate (.constant 3 4 false) = .ok ()
      decide
    unfold TrajWriter.new
    rw [hv]
    rfl
  gen := fun _ _ h => h
  colGen := TrajWriter.TrajDemo.colKey_inj

theorem knows (sig : List TensorSpec) : Knows (W sig).sig "t" sig := ⟨_, rfl, AMap.get?_insert_self ..⟩

/-- There is only one call of `CreateItem`. -/
theorem only {cols cols' : List TrajCol} {pre post : List TrajWriter.Event} {t : String} {p : Pri}
    (h : E cols = pre ++ .createItem t p cols' :: post) : pre = abc ∧ t = "t" ∧ p = .val 1 ∧ cols' = cols := by
  have hna : ∀ e ∈ abc, ∀ t p c, e ≠ .createItem t p c := by
    intro e he t p c hec
    subst hec
    simp [abc] at he
  have hns : ∀ e ∈ TrajWriter.TrajDemo.steps 40 good, ∀ t p c, e ≠ .createItem t p c := by
    intro e he t p c
    rw [List.eq_of_mem_replicate he]
    nofun
  unfold E at h
  rcases List.append_eq_append_iff.mp h with ⟨a, h1, h2⟩ | ⟨a, h1, h2⟩
  · cases a with
    | nil =>
      simp only [List.nil_append, List.cons.injEq, TrajWriter.Event.createItem.injEq] at h2
      obtain ⟨⟨rfl, rfl, rfl⟩, _⟩ := h2
      exact ⟨by simpa using h1, rfl, rfl, rfl⟩
    | cons x a =>
      simp only [List.cons_append, List.cons.injEq] at h2
      exact absurd rfl (hns (.createItem t p cols') (by rw [h2.2]; simp) t p cols')
  · cases a with
    | nil =>
      simp only [List.nil_append, List.cons.injEq, TrajWriter.Event.createItem.injEq] at h2
      obtain ⟨⟨rfl, rfl, rfl⟩, _⟩ := h2
      exact ⟨by simpa using h1.symm, rfl, rfl, rfl⟩
    | cons x a =>
      simp only [List.cons_append, List.cons.injEq] at h2
      exact absurd h2.1.symm.symm (by
        intro hx
        exact hna x (by rw [h1]; simp) t p cols' hx.symm)

/-- The references name the tensors. -/
theorem names (sg : List TensorSpec) (hsg : sg = sig) (i j : Nat) (hi : i < 2) (hj : j < 3) : (W sg).Names abc ⟨i, j⟩ (row (10 * i + j + 5)) := by
  subst hsg
  match i, j, hi, hj with
  | 0, 0, _, _ => exact ⟨abc.take 1, _, _, abc.drop 2, [some ⟨0, 0⟩, some ⟨1, 0⟩], rfl, by decide +kernel, rfl, rfl⟩
  | 0, 1, _, _ => exact ⟨abc.take 2, _, _, abc.drop 3, [some ⟨0, 1⟩, some ⟨1, 1⟩], rfl, by decide +kernel, rfl, rfl⟩
  | 0, 2, _, _ => exact ⟨abc.take 3, _, _, abc.drop 4, [some ⟨0, 2⟩, some ⟨1, 2⟩], rfl, by decide +kernel, rfl, rfl⟩
  | 1, 0, _, _ => exact ⟨abc.take 1, _, _, abc.drop 2, [some ⟨0, 0⟩, some ⟨1, 0⟩], rfl, by decide +kernel, rfl, rfl⟩
  | 1, 1, _, _ => exact ⟨abc.take 2, _, _, abc.drop 3, [some ⟨0, 1⟩, some ⟨1, 1⟩], rfl, by decide +kernel, rfl, rfl⟩
  | 1, 2, _, _ => exact ⟨abc.take 3, _, _, abc.drop 4, [some ⟨0, 2⟩, some ⟨1, 2⟩], rfl, by decide +kernel, rfl, rfl⟩
  | i + 2, _, hi, _ => omega
  | _, j + 3, _, hj => omega

theorem gives : (W sig).Gives abc fine [[row 6, row 7], [row 17, row 15, row 5], [row 6]] := by
  refine ⟨rfl, fun i col ts hc ht => ?_⟩
  match i, hc, ht with
  | 0, hc, ht =>
    simp only [fine, List.getElem?_cons_zero, Option.some.injEq] at hc ht
    subst hc ht
    refine ⟨rfl, fun j r x hr hx => ?_⟩
    match j, hr, hx with
    | 0, hr, hx => cases hr; cases hx; exact names _ rfl 0 1 (by omega) (by omega)
    | 1, hr, hx => cases hr; cases hx; exact names _ rfl 0 2 (by omega) (by omega)
    | j + 2, hr, _ => simp at hr
  | 1, hc, ht =>
    simp only [fine, List.getElem?_cons_succ, List.getElem?_cons_zero, Option.some.injEq] at hc ht
    subst hc ht
    refine ⟨rfl, fun j r x hr hx => ?_⟩
    match j, hr, hx with
    | 0, hr, hx => cases hr; cases hx; exact names _ rfl 1 2 (by omega) (by omega)
    | 1, hr, hx => cases hr; cases hx; exact names _ rfl 1 0 (by omega) (by omega)
    | 2, hr, hx => cases hr; cases hx; exact names _ rfl 0 0 (by omega) (by omega)
    | j + 3, hr, _ => simp at hr
  | 2, hc, ht =>
    simp only [fine, List.getElem?_cons_succ, List.getElem?_cons_zero, Option.some.injEq] at hc ht
    subst hc ht
    refine ⟨rfl, fun j r x hr hx => ?_⟩
    match j, hr, hx with
    | 0, hr, hx => cases hr; cases hx; exact names _ rfl 0 1 (by omega) (by omega)
    | j + 1, hr, _ => simp at hr
  | i + 3, hc, _ => simp [fine] at hc

def use : TrajWriter.Use where
  writer := W sig
  calls := E fine
  started := started sig
  valid := TrajWriter.TrajDemo.abc_valid
  refs := by
    intro pre t p cols post k h _
    obtain ⟨rfl, rfl, rfl, rfl⟩ := only h
    exact ⟨⟨_, gives⟩, fun col hc => TrajWriter.contiguous_of (by
      revert col
      decide +kernel)⟩

/-- What the writer has sent. -/
def str (sig : List TensorSpec) (cols : List TrajCol) : List Msg := ((W sig).run (E cols)).msgs

def content (st : List Msg) (k : Key) : ChunkData := ((st.flatMap Msg.chunks).find? fun ch => ch.key == k).getD (InsertDemo.chunk k)

def wire (st : List Msg) : Wire := ⟨fun e => e.data.length, fun _ => 1, 2, content st⟩

theorem content_key (st : List Msg) (k : Key) : (content st k).key = k := by
  unfold content
  cases h : (st.flatMap Msg.chunks).find? fun ch => ch.key == k with
  | none => rfl
  | some ch =>
    have := List.find?_some h
    simpa using this

/-- The server of the example of C89, which sends the sample in `n` messages. -/
def evs (st : List Msg) (n : Nat := 2) : List Service.Event :=
  [.insert (.start 5)] ++ st.map (fun m => .insert (.request 5 m.toReq)) ++
  [.insert (.insert 5 0 (draw 0)), .insert (.confirm 5 true), .sample (.start 7), .sample (.request 7 ⟨"t", 1, some 5000, -1⟩),
   .sample (.sample 7 1 fun _ => draw 0)] ++ List.replicate n (.sample (.write 7 true))

theorem mem_evs {st : List Msg} {s : Nat} {r : InsertReq} (hr : r ∈ Service.insertRequests s (evs st)) : s = 5 ∧ r ∈ st.map Msg.toReq := by
  simp only [Service.insertRequests, SyncServer.requests, List.filterMap_filterMap, List.mem_filterMap] at hr
  obtain ⟨e, he, g⟩ := hr
  simp only [evs, List.mem_append, List.mem_map, List.mem_cons, List.not_mem_nil, or_false, List.mem_replicate] at he
  rcases he with ((rfl | ⟨m, hm, rfl⟩) | rfl | rfl | rfl | rfl | rfl) | ⟨_, rfl⟩
  case inl.inl.inr =>
    simp only [Option.bind_some] at g
    split at g
    · rename_i h5
      cases g
      exact ⟨by simpa [eq_comm] using h5, List.mem_map_of_mem hm⟩
    · cases g
  all_goals cases g

theorem contents : Service.Contents (wire (str sig fine)) (evs (str sig fine)) := by
  have hall : ∀ r ∈ (str sig fine).map Msg.toReq, ∀ ch ∈ r.chunks, content (str sig fine) ch.key = ch := by decide +kernel
  exact fun s r hr ch hc => hall r (mem_evs hr).2 ch hc

theorem from_writers : TrajWrittenBy (Service.insertRequests · (evs (str sig fine))) fun _ : Unit => use := by
  intro s
  refine ⟨(), str sig fine, List.mem_append_right _ (by simp [str, use]), ?_⟩
  by_cases h : s = 5
  · subst h
    have : Service.insertRequests 5 (evs (str sig fine)) = (str sig fine).map Msg.toReq := by decide +kernel
    show Service.insertRequests 5 _ <+: _
    rw [this]
    exact List.prefix_rfl
  · have : Service.insertRequests s (evs (str sig fine)) = [] := by
      apply List.eq_nil_iff_forall_not_mem.mpr
      intro r hr
      exact h (mem_evs hr).1
    show Service.insertRequests s _ <+: _
    rw [this]
    exact List.nil_prefix

/-- The sampler, with the signature. -/
def cfg (sig : List TensorSpec) : SamplerCfg := SamplerDemo.grpc 10 1 (some (infoSpecs ++ sig))

/-- It asks for a sample, reads what comes, and returns it; or the worker reports an error. -/
def cev (wr : List Entry) : List (Nat × ClientSampler.Event) :=
  [(0, .work 0), (7, .work 0), (0, .write 0 none), (0, .call 0 .trajectory), (0, .response 0 wr), (0, .work 0), (0, .pop 0), (0, .finish 0)]

/-- The hypotheses of `C115_trajectories_partial` are met, and the sample is returned. -/
theorem demo : ∃ v u L, (Service.init (newTables EndToEndDemo.cfgs)).run (wire (str sig fine)) (evs (str sig fine)) = some v ∧
    ClientSampler.Linked (cfg sig) 0 v.written ((cev (v.written 7)).map Prod.snd) u L ∧
    (∀ e ∈ (cev (v.written 7)).map Prod.snd, ClientSampler.OnlyTrajectories e) ∧
    (∀ q ∈ L.opened, ∀ r ∈ Service.sampleRequests q (evs (str sig fine)), r ∈ u.sent) ∧
    u.log = [.trajectory [Tensor.stack .int32 [1] [row 6, row 7], Tensor.stack .int32 [1] [row 17, row 15, row 5], row 6]] := by
  have h : (((Service.init (newTables EndToEndDemo.cfgs)).run (wire (str sig fine)) (evs (str sig fine))).any fun v =>
      (ClientSampler.linkRun (cfg sig) v.written (ClientSampler.init (cfg sig) 0, .none) (cev (v.written 7))).any fun x =>
        decide ((∀ q ∈ x.2.opened, ∀ r ∈ Service.sampleRequests q (evs (str sig fine)), r ∈ x.1.sent) ∧
          x.1.log = [.trajectory [Tensor.stack .int32 [1] [row 6, row 7], Tensor.stack .int32 [1] [row 17, row 15, row 5], row 6]])) = true := by
    decide +kernel
  rw [Option.any_eq_true] at h
  obtain ⟨v, hv, h⟩ := h
  rw [Option.any_eq_true] at h
  obtain ⟨⟨u, L⟩, hu, h⟩ := h
  simp only [decide_eq_true_eq] at h
  refine ⟨v, u, L, hv, ?_, ?_, h.1, h.2⟩
  · simpa using ClientSampler.linkRun_linked (x := (ClientSampler.init (cfg sig) 0, .none)) .init hu
  · intro e he
    simp only [cev, List.map_cons, List.map_nil, List.mem_cons, List.not_mem_nil, or_false] at he
    rcases he with rfl | rfl | rfl | rfl | rfl | rfl | rfl | rfl <;> simp [ClientSampler.OnlyTrajectories]

/-- One column, with the steps 2 and 1 of one chunk, and its signature. -/
def swapped : List TrajCol := [⟨[⟨0, 2⟩, ⟨0, 1⟩], false⟩]
def one : List TensorSpec := [⟨.int32, some [none, some 1]⟩]

/-- Why the references have to be in order: a writer that knows the signature takes the steps 2 and 1 of a chunk for an item, and the server too; but
the worker of the sampler cannot unpack the sample and reports an error, which closes the sampler. -/
theorem C115_order_false : (W one).Started ∧ Knows (W one).sig "t" one ∧ (W one).replyAt abc (.createItem "t" (.val 1) swapped) = .ok (.item 1) ∧
    ∃ v u L, (Service.init (newTables EndToEndDemo.cfgs)).run (wire (str one swapped)) (evs (str one swapped) 1) = some v ∧
      ClientSampler.Linked (cfg one) 0 v.written (((cev (v.written 7)).map Prod.snd)) u L ∧
      clientSamples (L.read 7) = [.err .invalidArgument] ∧ u.log = [.error .invalidArgument] ∧ u.status = some .invalidArgument ∧ u.closed = false := by
  refine ⟨started one, knows one, by decide +kernel, ?_⟩
  have h : (((Service.init (newTables EndToEndDemo.cfgs)).run (wire (str one swapped)) (evs (str one swapped) 1)).any fun v =>
      (ClientSampler.linkRun (cfg one) v.written (ClientSampler.init (cfg one) 0, .none) (cev (v.written 7))).any fun x =>
        (match clientSamples (x.2.read 7) with
          | [.err .invalidArgument] => true
          | _ => false) &&
        decide (x.1.log = [.error .invalidArgument] ∧ x.1.status = some .invalidArgument ∧ x.1.closed = false)) = true := by
    decide +kernel
  rw [Option.any_eq_true] at h
  obtain ⟨v, hv, h⟩ := h
  rw [Option.any_eq_true] at h
  obtain ⟨⟨u, L⟩, hu, h⟩ := h
  simp only [Bool.and_eq_true, decide_eq_true_eq] at h
  refine ⟨v, u, L, hv, by simpa using ClientSampler.linkRun_linked (x := (ClientSampler.init (cfg one) 0, .none)) .init hu, ?_, h.2⟩
  have h1 := h.1
  split at h1
  · assumption
  · cases h1

/-! The old writer of the example of C100, with a signature. -/

def stepSig : List TensorSpec := [⟨.int32, some []⟩]

def stepWriter : Writer := { Writer.Demo.writer with sigs := some (AMap.insert .empty "t" (some stepSig)) }

def stepBefore : Writer := (stepWriter.run Writer.Demo.events.dropLast).getD stepWriter

theorem stepRuns : stepWriter.run Writer.Demo.events.dropLast = some stepBefore := by
  have : (stepWriter.run Writer.Demo.events.dropLast).isSome = true := by decide +kernel
  obtain ⟨b, hb⟩ := Option.isSome_iff_exists.mp this
  rw [stepBefore, hb]
  rfl

theorem stepSound : stepWriter.AllSound 1 Writer.Demo.events := by
  have hap : ∀ (w : Writer) n (as : List Answer), .finish none ∉ as → w.Sound 1 (.append [Writer.Demo.x n], as) := fun w n as h =>
    ⟨rfl, by simpa using Writer.Demo.wf n, h⟩
  refine ⟨hap _ _ _ (by decide), hap _ _ _ (by decide), hap _ _ _ (by decide), ⟨by decide, .inl (by decide +kernel), by decide⟩,
    hap _ _ _ (by decide), hap _ _ _ (by decide), ⟨by decide, .inl (by decide +kernel), by decide⟩,
    (by decide : .finish none ∉ [Answer.write true]), trivial⟩

def stepUse : Writer.Use where
  writer := stepWriter
  spec := [(.int32, [])]
  calls := Writer.Demo.events.dropLast
  last := (.flush, [.write true])
  before := stepBefore
  new := ⟨rfl, fun _ _ h => h⟩
  runs := stepRuns
  sound := stepSound
  fits := StepsDemo.use.fits

/-- It sends the same messages as without the signature, and knows the signature: the other hypotheses are those of `StepsDemo.demo`. -/
theorem step_writers : Service.FromWriters StepsDemo.evs (fun _ : Unit => stepUse) ∧ Knows stepUse.writer.sigs "t" stepSig := by
  refine ⟨fun s => ?_, ⟨_, rfl, AMap.get?_insert_self ..⟩⟩
  obtain ⟨_, st, hs, hp⟩ := StepsDemo.from_writers s
  refine ⟨(), st, ?_, hp⟩
  have : stepUse.streams = StepsDemo.use.streams := by decide +kernel
  rw [this]
  exact hs

/-- The sampler of the example of C100, with the signature. -/
theorem step_demo : ∃ v u L, (Service.init (newTables EndToEndDemo.cfgs)).run StepsDemo.wire StepsDemo.evs = some v ∧
    ClientSampler.Linked (cfg stepSig) 0 v.written ((StepsDemo.cev (v.written 7)).map Prod.snd) u L ∧
    ClientSampler.Reach (cfg stepSig) 0 (fun v e => ClientSampler.Faithful v e ∧ ClientSampler.NoTrajectories e)
      ((StepsDemo.cev (v.written 7)).map Prod.snd) u ∧
    (∀ q ∈ L.opened, ∀ r ∈ Service.sampleRequests q StepsDemo.evs, r ∈ u.sent) ∧
    u.log = [.timestep [Writer.Demo.x 2] false, .timestep [Writer.Demo.x 3] true, .timestep [Writer.Demo.x 2] false] := by
  have h : (((Service.init (newTables EndToEndDemo.cfgs)).run StepsDemo.wire StepsDemo.evs).any fun v =>
      (StepsDemo.checkedRun (cfg stepSig) v.written SampleOrderDemo.timestepsB (ClientSampler.init (cfg stepSig) 0, .none) (StepsDemo.cev (v.written 7))).any fun x =>
        decide ((∀ q ∈ x.2.opened, ∀ r ∈ Service.sampleRequests q StepsDemo.evs, r ∈ x.1.sent) ∧
          x.1.log = [.timestep [Writer.Demo.x 2] false, .timestep [Writer.Demo.x 3] true, .timestep [Writer.Demo.x 2] false])) = true := by decide +kernel
  rw [Option.any_eq_true] at h
  obtain ⟨v, hv, h⟩ := h
  rw [Option.any_eq_true] at h
  obtain ⟨⟨u, L⟩, hu, h⟩ := h
  simp only [decide_eq_true_eq] at h
  obtain ⟨h1, h2⟩ := StepsDemo.checkedRun_ok (Q := fun v e => ClientSampler.Faithful v e ∧ ClientSampler.NoTrajectories e) (fun v e g => by
    obtain ⟨g1, g2⟩ := SampleOrderDemo.timesteps_of v e g
    refine ⟨g1, ?_⟩
    cases e with
    | call x k =>
      have g2 : k = .timestep := g2
      simp [ClientSampler.NoTrajectories, g2]
    | _ => trivial) (x := (ClientSampler.init (cfg stepSig) 0, .none)) .init .init hu
  exact ⟨v, u, L, hv, by simpa using h1, by simpa using h2, h.1, h.2⟩

end RefusedDemo
end Verif
