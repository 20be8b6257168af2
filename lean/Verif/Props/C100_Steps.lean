import Verif.Spec.EndToEndSteps
import Verif.Props.C89_EndToEnd
import Verif.Proofs.EndToEndSteps
import Verif.Proofs.Isolation
import Verif.Props.C42_Writer
import Verif.Props.C44_C46_Sample
/-
C100: the steps that a sampler returns are the last steps that were appended when the item was made.
-/
namespace Verif
namespace Service

/-- C100 (partial), old writer and server: let all that is inserted come from old writers. Then every sample that was taken from a table for a sample stream shows the last
steps that had been appended when one of the writers was asked for this item in this table: unpacked at once, as a batch, or step by step. Missing,
here and below: what `Writer.Sound` asks for (see C42), and servers that get items from other clients too. -/
theorem C100_sample_partial {ι : Type} {w : Wire} (hw : ∀ k, (w.content k).key = k) {cfgs : AMap String Config} {evs : List Event} {v : Service}
    (hr : (Service.init (newTables cfgs)).run w evs = some v) (hc : Contents w evs) {users : ι → Writer.Use} (hu : FromWriters evs users)
    {q : Nat} {y : String × Sampled} (hy : y ∈ v.got q) :
    ∃ u steps smp, (users u).Asked y.1 steps ∧ asSampleLocal (y.2.sent w) = .ok smp ∧ smp.asTrajectory = .ok (stackSteps (users u).spec steps) ∧
      smp.asBatchedTimesteps = .ok (Int.ofNat steps.length, stackSteps (users u).spec steps) ∧
      ∀ c out s', ClientSampler.Reads c smp out s' → ClientSampler.GivesSteps c steps out ∧ (s'.isEndOfSample = true → out.length = steps.length) :=
  (flow hw hr).step_sample hc hu hy

/-- C100 (partial), old writers to a sampler that returns whole samples: every trajectory and every batch that it returns consists of the last steps that had been appended to one of the
writers when it was asked for an item in the table of the sampler. -/
theorem C100_samples_partial {ι : Type} {w : Wire} (hw : ∀ k, (w.content k).key = k) {cfgs : AMap String Config} {evs : List Event} {v : Service}
    (hr : (Service.init (newTables cfgs)).run w evs = some v) (hc : Contents w evs) {users : ι → Writer.Use} (hu : FromWriters evs users)
    {c : SamplerCfg} (hcv : c.Valid) {t : String} {a b : Int} (hsrc : c.source = .grpc t a b) {now : Int} {cev : List ClientSampler.Event}
    {s : ClientSampler} {L : Links} (hl : ClientSampler.Linked c now v.written cev s L) (hnt : ∀ e ∈ cev, ClientSampler.NoTimesteps e)
    (hask : ∀ q ∈ L.opened, ∀ r ∈ sampleRequests q evs, r ∈ s.sent) {o : SampleOut} (ho : o ∈ s.log) :
    (∃ u steps, (users u).Asked t steps ∧ (o = .trajectory (stackSteps (users u).spec steps) ∨
      o = .batched (Int.ofNat steps.length) (stackSteps (users u).spec steps))) ∨ ∃ e, o = .error e :=
  (flow hw hr).step_samples hc hu hcv hsrc hl hnt hask ho

/-- C100 (partial), old writers to a sampler that returns timesteps: what it returns are the last steps that had been appended to one of the writers when it was asked for an item in the
table of the sampler, from the first to the last, then those of the next item, and so on. -/
theorem C100_timesteps_partial {ι : Type} {w : Wire} (hw : ∀ k, (w.content k).key = k) {cfgs : AMap String Config} {evs : List Event} {v : Service}
    (hr : (Service.init (newTables cfgs)).run w evs = some v) (hc : Contents w evs) {users : ι → Writer.Use} (hu : FromWriters evs users)
    {c : SamplerCfg} (hcv : c.Valid) {t : String} {a b : Int} (hsrc : c.source = .grpc t a b) {now : Int} {cev : List ClientSampler.Event}
    {s : ClientSampler} {L : Links} (hl : ClientSampler.Linked c now v.written cev s L)
    (hrch : ClientSampler.Reach c now (fun v e => ClientSampler.Faithful v e ∧ ClientSampler.OnlyTimesteps e) cev s)
    (hask : ∀ q ∈ L.opened, ∀ r ∈ sampleRequests q evs, r ∈ s.sent) :
    ∃ out rest, s.log = out ++ rest ∧ ClientSampler.StepLog c (fun steps => ∃ u, (users u).Asked t steps) out ∧
      (rest = [] ∨ ∃ u steps, (users u).Asked t steps ∧ ClientSampler.GivesSteps c steps rest) :=
  (flow hw hr).timesteps hc hu hcv hsrc hl hrch hask

end Service

/-! ### An example -/

namespace StepsDemo
open ClientSampler SampleOrderDemo

/-- A run of a connected sampler all of whose events satisfy a condition. -/
def checkedRun (c : SamplerCfg) (wr : Nat → List Entry) (P : ClientSampler → ClientSampler.Event → Bool) :
    ClientSampler × Links → List (Nat × ClientSampler.Event) → Option (ClientSampler × Links)
  | x, [] => some x
  | x, (q, e) :: es =>
    if P x.1 e then
      match linkStep c wr x q e with
      | none => none
      | some x' => checkedRun c wr P x' es
    else none

theorem linkStep_step {c : SamplerCfg} {wr : Nat → List Entry} {x x' : ClientSampler × Links} {q : Nat} {e : ClientSampler.Event}
    (h : linkStep c wr x q e = some x') : ClientSampler.step c x.1 e = some x'.1 := by
  unfold linkStep at h
  split at h
  · cases h
  · rename_i v' hv
    rw [hv]
    repeat' split at h
    all_goals cases h
    all_goals rfl

theorem checkedRun_ok {c : SamplerCfg} {now : Int} {wr : Nat → List Entry} {P : ClientSampler → ClientSampler.Event → Bool}
    {Q : ClientSampler → ClientSampler.Event → Prop} (hP : ∀ v e, P v e = true → Q v e) :
    ∀ {es : List (Nat × ClientSampler.Event)} {evs : List ClientSampler.Event} {x x' : ClientSampler × Links}, Linked c now wr evs x.1 x.2 → Reach c now Q evs x.1 →
      checkedRun c wr P x es = some x' → Linked c now wr (evs ++ es.map Prod.snd) x'.1 x'.2 ∧ Reach c now Q (evs ++ es.map Prod.snd) x'.1
  | [], evs, x, x', h1, h2, hs => by cases hs; simpa using ⟨h1, h2⟩
  | (q, e) :: es, evs, x, x', h1, h2, hs => by
    simp only [checkedRun] at hs
    split at hs
    · rename_i hp
      split at hs
      · cases hs
      · rename_i x1 hx1
        have := checkedRun_ok hP (linkStep_linked h1 hx1) (.step h2 (hP _ _ hp) (linkStep_step hx1)) hs
        simpa using this
    · cases hs

/-- The writer of the example of C42. Its first stream fails; the second one gets two items, of the steps 2 and 3 and of the steps 2 to 5. -/
def before : Writer := (Writer.Demo.writer.run Writer.Demo.events.dropLast).getD Writer.Demo.writer

theorem runs : Writer.Demo.writer.run Writer.Demo.events.dropLast = some before := by
  have : (Writer.Demo.writer.run Writer.Demo.events.dropLast).isSome = true := by decide +kernel
  obtain ⟨b, hb⟩ := Option.isSome_iff_exists.mp this
  rw [before, hb]
  rfl

def use : Writer.Use where
  writer := Writer.Demo.writer
  spec := [(.int32, [])]
  calls := Writer.Demo.events.dropLast
  last := (.flush, [.write true])
  before := before
  new := Writer.Demo.new
  runs := runs
  sound := Writer.Demo.sound
  fits := by
    have hx : ∀ n, Timestep.Of [Writer.Demo.x n] [(.int32, [])] := by
      intro n
      refine ⟨rfl, fun i d sh t h1 h2 => ?_⟩
      cases i with
      | zero => cases h1; cases h2; exact ⟨Writer.Demo.wf n, rfl, rfl⟩
      | succ i => simp at h1
    intro data as h
    simp only [Writer.Demo.events, List.dropLast, List.cons_append, List.nil_append, List.mem_cons, Prod.mk.injEq, List.not_mem_nil, or_false,
      reduceCtorEq, false_and, false_or, Writer.Call.append.injEq] at h
    rcases h with ⟨rfl, _⟩ | ⟨rfl, _⟩ | ⟨rfl, _⟩ | ⟨rfl, _⟩ | ⟨rfl, _⟩ <;> exact hx _

/-- What it has sent on the second stream. -/
def str : List Msg := (before.call .flush [.write true]).1.msgs

def content (k : Key) : ChunkData := ((str.flatMap Msg.chunks).find? fun ch => ch.key == k).getD (InsertDemo.chunk k)

theorem content_key (k : Key) : (content k).key = k := by
  unfold content
  cases h : (str.flatMap Msg.chunks).find? fun ch => ch.key == k with
  | none => rfl
  | some ch =>
    have := List.find?_some h
    simpa using this

def wire : Wire := ⟨fun e => e.data.length, fun _ => 1, 2, content⟩

/-- The server gets both items on the stream 5 and gives the stream 7 a sample of each; the first item is deleted in between. -/
def evs : List Service.Event :=
  [.insert (.start 5)] ++ str.flatMap (fun m => [.insert (.request 5 m.toReq), .insert (.insert 5 0 (draw 0)), .insert (.confirm 5 true)]) ++
  [.sample (.start 7), .sample (.request 7 ⟨"t", 1, some 5000, -1⟩),
   .sample (.sample 7 1 fun _ => draw 0), .sample (.write 7 true), .sample (.next 7),
   .sample (.request 7 ⟨"t", 1, some 5000, -1⟩), .unary (.mutate "t" [] [3]), .sample (.sample 7 1 fun _ => draw 0),
   .sample (.write 7 true), .sample (.write 7 true)]

theorem mem_evs {s : Nat} {r : InsertReq} (hr : r ∈ Service.insertRequests s evs) : s = 5 ∧ r ∈ str.map Msg.toReq := by
  simp only [Service.insertRequests, SyncServer.requests, List.filterMap_filterMap, List.mem_filterMap] at hr
  obtain ⟨e, he, g⟩ := hr
  simp only [evs, List.mem_append, List.mem_flatMap, List.mem_cons, List.not_mem_nil, or_false] at he
  rcases he with (rfl | ⟨m, hm, rfl | rfl | rfl⟩) | rfl | rfl | rfl | rfl | rfl | rfl | rfl | rfl | rfl | rfl
  case inl.inr.inl =>
    simp only [Option.bind_some] at g
    split at g
    · rename_i h5
      cases g
      exact ⟨by simpa [eq_comm] using h5, List.mem_map_of_mem hm⟩
    · cases g
  all_goals cases g

theorem contents : Service.Contents wire evs := by
  have hall : ∀ r ∈ str.map Msg.toReq, ∀ ch ∈ r.chunks, content ch.key = ch := by decide +kernel
  exact fun s r hr ch hc => hall r (mem_evs hr).2 ch hc

theorem from_writers : Service.FromWriters evs fun _ : Unit => use := by
  intro s
  refine ⟨(), str, List.mem_append_right _ (List.mem_singleton.mpr rfl), ?_⟩
  by_cases h : s = 5
  · subst h
    have : Service.insertRequests 5 evs = str.map Msg.toReq := by decide +kernel
    show Service.insertRequests 5 evs <+: _
    rw [this]
    exact List.prefix_rfl
  · have : Service.insertRequests s evs = [] := by
      apply List.eq_nil_iff_forall_not_mem.mpr
      intro r hr
      exact h (mem_evs hr).1
    show Service.insertRequests s evs <+: _
    rw [this]
    exact List.nil_prefix

/-- The sampler returns the first sample step by step, and the first step of the second sample, whose second message comes only then. -/
def cev (wr : List Entry) : List (Nat × ClientSampler.Event) :=
  [(0, .work 0), (7, .work 0), (0, .write 0 none), (0, .response 0 (wr.take 1)), (0, .call 0 .timestep), (0, .work 0), (0, .pop 0), (0, .finish 0),
   (0, .call 1 .timestep), (0, .finish 1), (0, .write 0 none), (0, .response 0 ((wr.drop 1).take 1)), (0, .call 2 .timestep), (0, .response 0 (wr.drop 2)),
   (0, .work 0), (0, .pop 2), (0, .finish 2)]

/-- The hypotheses of `C100_timesteps_partial` are met, and this is what the sampler returns. -/
theorem demo : ∃ v u L, (Service.init (newTables EndToEndDemo.cfgs)).run wire evs = some v ∧
    Linked EndToEndDemo.cfg 0 v.written ((cev (v.written 7)).map Prod.snd) u L ∧
    Reach EndToEndDemo.cfg 0 (fun v e => Faithful v e ∧ OnlyTimesteps e) ((cev (v.written 7)).map Prod.snd) u ∧
    (∀ q ∈ L.opened, ∀ r ∈ Service.sampleRequests q evs, r ∈ u.sent) ∧
    u.log = [.timestep [Writer.Demo.x 2] false, .timestep [Writer.Demo.x 3] true, .timestep [Writer.Demo.x 2] false] := by
  have h : (((Service.init (newTables EndToEndDemo.cfgs)).run wire evs).any fun v =>
      (checkedRun EndToEndDemo.cfg v.written timestepsB (ClientSampler.init EndToEndDemo.cfg 0, .none) (cev (v.written 7))).any fun x =>
        decide ((∀ q ∈ x.2.opened, ∀ r ∈ Service.sampleRequests q evs, r ∈ x.1.sent) ∧
          x.1.log = [.timestep [Writer.Demo.x 2] false, .timestep [Writer.Demo.x 3] true, .timestep [Writer.Demo.x 2] false])) = true := by decide +kernel
  rw [Option.any_eq_true] at h
  obtain ⟨v, hv, h⟩ := h
  rw [Option.any_eq_true] at h
  obtain ⟨⟨u, L⟩, hu, h⟩ := h
  simp only [decide_eq_true_eq] at h
  obtain ⟨h1, h2⟩ := checkedRun_ok timesteps_of (x := (ClientSampler.init EndToEndDemo.cfg 0, .none)) .init .init hu
  exact ⟨v, u, L, hv, by simpa using h1, by simpa using h2, h.1, h.2⟩

end StepsDemo
end Verif
