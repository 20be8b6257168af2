import Verif.Proofs.TFClient
import Verif.Props.C100_Steps
import Verif.Props.C102_PySample
/-
C109: what `TFClient.sample` returns.
-/
namespace Verif
namespace TFSample
open ClientSampler

/-- C109: the sampler of the op can always be made, for a table on a server or in the same process, and whatever the signature of the table is. It asks for
one sample and has no timeout. -/
theorem C109_sampler (table : String) (here : Option Table) (sigs : Res Signatures) : ∃ c, cfg table (here.map Table.defaultBatch) sigs = .ok c ∧ c.Valid ∧
    c.max = 1 ∧ c.timeout = none := by
  obtain ⟨c, h1, h2, h3, h4, _⟩ := cfg_ok table here sigs
  exact ⟨c, h1, h2, h3, h4⟩

/-- C109: what is returned is the first timestep of a sample that has come from the table, with the key, the probability, the size of the table and the priority that
came with this sample, and no other sample has come. The data has the structure of `data_dtypes` and the types that are given there. -/
theorem C109_outputs {table : String} {here : Option Table} {sigs : Res Signatures} {c : SamplerCfg}
    (hm : cfg table (here.map Table.defaultBatch) sigs = .ok c) {now : Int} {evs : List Event} {v : ClientSampler} (h : Run c now evs v)
    {dtypes : PTree DType} (hd : dtypes.WF) {out : ReplaySample} (hs : sample dtypes v = some (.ok out)) :
    ∃ s step, v.arrived = [s] ∧ FirstStep s step ∧ out.info = s.info.py ∧ Nested dtypes step out.data := by
  obtain ⟨c', hm', hc, hmax, _⟩ := cfg_ok table here sigs
  rw [hm] at hm'
  cases hm'
  have hlen : v.dead = false → v.arrived.length ≤ 1 := by
    intro hd
    have g := Reach.inv hc (fun _ _ g => g.1) h hd
    have h1 := g.room
    have h2 := room_nonneg v g.phase
    unfold ClientSampler.arrived
    rw [List.length_map]
    omega
  have hinv := Run.inv hc h
  unfold sample at hs
  split at hs
  · cases hs
  rename_i r hr
  split at hs
  · cases hs
  · cases hs
  rename_i o ho
  split at hs
  · cases hs
  rename_i t ht
  cases hs
  unfold typed at ho
  split at ho
  · rename_i o'
    split at ho
    · rename_i hty
      cases ho
      unfold compute at hr
      split at hr
      · cases hr
      rename_i hdd
      replace hlen := hlen (by simpa using hdd)
      rcases hinv.log with ⟨g, _⟩ | ⟨o1, g1, _, g2⟩
      · rw [g] at hr
        cases hr
      · rw [g1] at hr
        rcases g2 with ⟨e, rfl⟩ | ⟨rows, last, s, s', rfl, e2, e3, e4⟩
        · cases hr
        · simp only [e4] at hr
          split at hr
          · rename_i hl
            cases hr
            have hs1 : v.arrived = [s] := by
              match hv : v.arrived, hlen with
              | [], _ => rw [hv] at e2; cases e2
              | [x], _ =>
                rw [hv] at e2
                simp only [List.mem_singleton] at e2
                rw [e2]
            obtain ⟨t', h1, h2⟩ := PTree.unflatten_ok hd (flat := rows) (by omega)
            rw [h1] at ht
            cases ht
            refine ⟨s, rows, hs1, ⟨last, s', e3⟩, ?_, ⟨t, rfl, h2⟩, hty⟩
            simp only [SampleInfo.py, deliver_info e3]
          · cases hr
    · cases ho
  · cases ho
  · cases ho

/-- C109: an error is the error of the sampler, or the first timestep has another number of arrays (`InvalidArgument`), or other types (`Internal`). -/
theorem C109_errors {c : SamplerCfg} (hc : c.Valid) {now : Int} {evs : List Event} {v : ClientSampler} (h : Run c now evs v) {dtypes : PTree DType}
    (hd : dtypes.WF) {e : PyExc} (hs : sample dtypes v = some (.raised e)) :
    (∃ st, e = .status st ∧ v.log = [.error st]) ∨
    ∃ s ∈ v.arrived, ∃ step, FirstStep s step ∧
      ((step.length ≠ dtypes.flattenWithPath.length ∧ e = .status .invalidArgument) ∨
       (step.length = dtypes.flattenWithPath.length ∧ step.map Tensor.dtype ≠ dtypes.flattenWithPath.map Prod.snd ∧ e = .status .internal)) := by
  have hinv := Run.inv hc h
  unfold sample at hs
  split at hs
  · cases hs
  rename_i r hr
  unfold compute at hr
  split at hr
  · cases hr
    simp only [typed] at hs
    cases hs
  rcases hinv.log with ⟨g, _⟩ | ⟨o1, g1, _, g2⟩
  · rw [g] at hr
    cases hr
  · rw [g1] at hr
    rcases g2 with ⟨st, rfl⟩ | ⟨rows, last, s, s', rfl, e2, e3, e4⟩
    · cases hr
      simp only [typed] at hs
      cases hs
      exact .inl ⟨st, rfl, g1⟩
    · simp only [e4] at hr
      refine .inr ⟨s, e2, rows, ⟨last, s', e3⟩, ?_⟩
      split at hr
      · rename_i hl
        cases hr
        simp only [typed] at hs
        split at hs
        · rename_i e' he
          split at he
          · cases he
          · rename_i hty
            cases he
            cases hs
            exact .inr ⟨by omega, hty, rfl⟩
        · rename_i he
          split at he <;> cases he
        · rename_i o he
          split at he
          · cases he
            obtain ⟨t', h1, h2⟩ := PTree.unflatten_ok hd (flat := rows) (by omega)
            simp only [h1] at hs
            cases hs
          · cases he
      · rename_i hl
        cases hr
        simp only [typed] at hs
        cases hs
        exact .inl ⟨by omega, rfl⟩

/-- C109: the call goes on until there is a sample: every request asks the server for one sample without a timeout, on both servers. -/
theorem C109_waits {table : String} {sigs : Res Signatures} {c : SamplerCfg} (hm : cfg table none sigs = .ok c) {now : Int}
    {P : ClientSampler → Event → Prop} {evs : List Event} {v : ClientSampler} (h : Reach c now P evs v) {r : SampleReq} (hr : r ∈ v.sent) :
    r.table = table ∧ r.num = 1 ∧ r.syncTimeout = none ∧ r.asyncTimeout = none := by
  obtain ⟨c', hm', hc, _, ht, _, hsrc⟩ := cfg_ok table none sigs
  rw [show (none : Option Table).map Table.defaultBatch = none from rfl, hm] at hm'
  cases hm'
  have hsrc := hsrc rfl
  obtain ⟨t, p, f, e1, e2, e3, e4, _⟩ := C45_request_size hc h hr
  rw [hsrc] at e1
  cases e1
  refine ⟨e2, by omega, ?_⟩
  have htm : r.timeout = some (-1) := by
    induction h with
    | init => simp [ClientSampler.init] at hr
    | step _ _ hs ih =>
      rcases (Eff.step hs).sent with e | ⟨i, n, got, t, p, f, _, hsrc, hlt, _, e⟩
      · rw [e] at hr
        exact ih hr
      · rw [e] at hr
        rcases List.mem_append.mp hr with g | g
        · exact ih g
        · simp only [List.mem_singleton] at g
          subst g
          simp [clientRequest, ht, toMillis]
  simp [SampleReq.syncTimeout, SampleReq.asyncTimeout, htm]

/-- What holds of a server through which samples flow. -/
theorem item_of {ι : Type} {w : Wire} {ins : Nat → List InsertReq} {asks : Nat → List SampleReq} {got : Nat → List (String × Sampled)}
    {written : Nat → List Entry} (F : Flow w ins asks got written) (hcon : ContentsOf w ins) {users : ι → Writer.Use} (hu : WrittenBy ins users)
    {table : String} {sigs : Res Signatures} {c : SamplerCfg} (hm : cfg table none sigs = .ok c) {now : Int} {cev : List Event} {v : ClientSampler} {L : Links}
    (hl : Linked c now written cev v L) (h : Run c now cev v) (hask : ∀ q ∈ L.opened, ∀ r ∈ asks q, r ∈ v.sent)
    {dtypes : PTree DType} (hd : dtypes.WF) {out : ReplaySample} (hs : sample dtypes v = some (.ok out)) :
    ∃ q y u steps step, y ∈ got q ∧ y.1 = table ∧ out.info = ⟨y.2.item.key, y.2.probability, y.2.tableSize.toNat, y.2.priority⟩ ∧
      (users u).Asked table steps ∧ steps.head? = some step ∧ Nested dtypes step out.data ∧
      ((∀ (t : String) (n : Int) (p : Pri) (as : List Answer), (Writer.Call.createItem t n p, as) ∈ (users u).calls ++ [(users u).last] → n = 1) → steps = [step]) := by
  obtain ⟨c', hm', hc, _, _, _, hsrc⟩ := cfg_ok table none sigs
  rw [show (none : Option Table).map Table.defaultBatch = none from rfl, hm] at hm'
  cases hm'
  obtain ⟨s, step, h1, ⟨last, s', h2⟩, h3, h4⟩ := C109_outputs (here := none) hm h hd hs
  obtain ⟨q, y, hy, rfl, hys⟩ := F.arrived_from hc (hsrc rfl) hl hask (x := s) (by rw [h1]; exact List.mem_cons_self)
  obtain ⟨u, steps, smp, e1, e2, _, _, e3⟩ := F.step_sample hcon hu hy
  rw [hys] at e2
  cases e2
  have hend : s.isEndOfSample = false := by
    unfold Sample.deliver at h2
    split at h2
    · cases h2
    · cases h2
    · split at h2
      · rename_i hn
        unfold Sample.nextTimestep at hn
        split at hn
        · cases hn
        · rename_i hne
          simpa using hne
      · cases h2
      · cases h2
  have hreads : Reads { c with spec := none } s ([] ++ [.timestep step last]) s' := .step (.nil s) hend (by simp [Sample.stepOutcome, h2, SampleCall.validate])
  obtain ⟨⟨g1, g2⟩, _⟩ := e3 _ _ _ hreads
  obtain ⟨st, g3, g4⟩ := g2 0 _ rfl
  have hst : steps.head? = some step := by
    rw [List.head?_eq_getElem?, g3]
    rcases g4 with g4 | ⟨g4, _⟩
    · cases g4; rfl
    · exact absurd rfl g4
  refine ⟨q, y, u, steps, step, hy, rfl, ?_, e1, hst, h4, ?_⟩
  · rw [h3]
    rw [asSampleLocal_info hys]
    rfl
  · intro hone
    obtain ⟨it, _, pre, t, p, as, post, w1, n, a1, _, _, _, _, _, _, a8⟩ := e1
    have hn : (n : Int) = 1 := hone t n p as (by rw [a1]; simp)
    have hlen : steps.length ≤ 1 := by
      rw [a8]
      unfold lastSteps
      rw [List.length_drop]
      omega
    match steps, hst, hlen with
    | [x], hst, _ => cases hst; rfl

/-- C109 (partial), from old writers through a server to a graph: what `TFClient.sample` returns are the key, the probability, the size of the table and the priority of an
item that was sampled from the table, and the first of the steps that this item was made of. If the writer was only asked for items of one step (as
`TFClient.insert` and `Client.insert` do, see C93), this step is all of the item. Missing: the other steps of longer items, see
`C109_whole_item_false`; and what is missing in `C100_sample_partial`. -/
theorem C109_item_partial {ι : Type} {w : Wire} (hw : ∀ k, (w.content k).key = k) {cfgs : AMap String Config} {evs : List Service.Event} {srv : Service}
    (hr : (Service.init (newTables cfgs)).run w evs = some srv) (hcon : Service.Contents w evs) {users : ι → Writer.Use} (hu : Service.FromWriters evs users)
    {table : String} {sigs : Res Signatures} {c : SamplerCfg} (hm : cfg table none sigs = .ok c) {now : Int} {cev : List Event} {v : ClientSampler} {L : Links}
    (hl : Linked c now srv.written cev v L) (h : Run c now cev v) (hask : ∀ q ∈ L.opened, ∀ r ∈ Service.sampleRequests q evs, r ∈ v.sent)
    {dtypes : PTree DType} (hd : dtypes.WF) {out : ReplaySample} (hs : sample dtypes v = some (.ok out)) :
    ∃ q y u steps step, y ∈ srv.got q ∧ y.1 = table ∧ out.info = ⟨y.2.item.key, y.2.probability, y.2.tableSize.toNat, y.2.priority⟩ ∧
      (users u).Asked table steps ∧ steps.head? = some step ∧ Nested dtypes step out.data ∧
      ((∀ (t : String) (n : Int) (p : Pri) (as : List Answer), (Writer.Call.createItem t n p, as) ∈ (users u).calls ++ [(users u).last] → n = 1) → steps = [step]) :=
  item_of (Service.flow hw hr) hcon hu hm hl h hask hd hs

/-! ### An example -/

namespace Demo
open StepsDemo

/-- The server gets the items of the example of C100, and gives the stream 7 a sample of the first one, which has the steps 2 and 3. -/
def evs : List Service.Event :=
  [.insert (.start 5)] ++ str.flatMap (fun m => [.insert (.request 5 m.toReq), .insert (.insert 5 0 (draw 0)), .insert (.confirm 5 true)]) ++
  [.sample (.start 7), .sample (.request 7 ⟨"t", 1, some (-1), -1⟩), .sample (.sample 7 1 fun _ => draw 0), .sample (.write 7 true)]

theorem mem_evs {s : Nat} {r : InsertReq} (hr : r ∈ Service.insertRequests s evs) : s = 5 ∧ r ∈ str.map Msg.toReq := by
  simp only [Service.insertRequests, SyncServer.requests, List.filterMap_filterMap, List.mem_filterMap] at hr
  obtain ⟨e, he, g⟩ := hr
  simp only [evs, List.mem_append, List.mem_flatMap, List.mem_cons, List.not_mem_nil, or_false] at he
  rcases he with (rfl | ⟨m, hm, rfl | rfl | rfl⟩) | rfl | rfl | rfl | rfl
  case inl.inr.inl =>
    simp only [Option.bind_some] at g
    split at g
    · rename_i h5
      cases g
      exact ⟨by simpa [eq_comm] using h5, List.mem_map_of_mem hm⟩
    · cases g
  all_goals cases g

theorem contents : Service.Contents wire evs := by
  have hall : ∀ r ∈ str.map Msg.toReq, ∀ ch ∈ r.chunks, content ch.key = ch := by decide +kernel
  exact fun s r hr ch hc => hall r (mem_evs hr).2 ch hc

theorem from_writers : Service.FromWriters evs fun _ : Unit => use := by
  intro s
  refine ⟨(), str, List.mem_append_right _ (List.mem_singleton.mpr rfl), ?_⟩
  by_cases h : s = 5
  · subst h
    have : Service.insertRequests 5 evs = str.map Msg.toReq := by decide +kernel
    show Service.insertRequests 5 evs <+: _
    rw [this]
    exact List.prefix_rfl
  · have : Service.insertRequests s evs = [] := by
      apply List.eq_nil_iff_forall_not_mem.mpr
      intro r hr
      exact h (mem_evs hr).1
    show Service.insertRequests s evs <+: _
    rw [this]
    exact List.nil_prefix

def config : SamplerCfg := ⟨1, 10000, 1, 1, none, .grpc "t" 1 (-1), none⟩

theorem config_ok : cfg "t" none (.ok .empty) = .ok config := by
  have hv : options.validate = none := by decide
  simp only [cfg, hv]
  unfold SamplerCfg.make
  simp [options, SamplerOptions.workers, SamplerOptions.max, SamplerOptions.unlimited, autoSelect, config, newSamplerSpec, samplerSpec, AMap.empty, AMap.get?]
  rfl

def cev (wr : List Entry) : List (Nat × Event) :=
  [(0, .call 0 .timestep), (0, .work 0), (7, .work 0), (0, .write 0 none), (0, .response 0 wr), (0, .work 0), (0, .pop 0), (0, .finish 0)]

def allowedB (v : ClientSampler) (e : Event) : Bool := faithfulB v e &&
  match e with
  | .call _ k => decide (k = .timestep ∧ v.log = [])
  | _ => true

theorem allowed_of (v : ClientSampler) (e : Event) (h : allowedB v e = true) : Faithful v e ∧ OneCall v e := by
  simp only [allowedB, Bool.and_eq_true] at h
  refine ⟨faithful_of h.1, ?_⟩
  cases e with
  | call x k => simpa [OneCall] using h.2
  | _ => trivial

def dtypes : PTree DType := .dict [("x", .leaf .int32)]

/-- The data that came back at the path, and the information about the item. -/
def found : Option (PyRes ReplaySample) → Option (PyInfo × Option Tensor)
  | some (.ok ⟨info, .nested t⟩) => some (info, t.at? [.key "x"])
  | _ => none

/-- The hypotheses of the theorems are met: this is a run of the op. What it returns is the step 2 of an item that has two steps. -/
theorem demo : ∃ srv v L out, (Service.init (newTables EndToEndDemo.cfgs)).run wire evs = some srv ∧
    Linked config 0 srv.written ((cev (srv.written 7)).map Prod.snd) v L ∧ Run config 0 ((cev (srv.written 7)).map Prod.snd) v ∧
    (∀ q ∈ L.opened, ∀ r ∈ Service.sampleRequests q evs, r ∈ v.sent) ∧ sample dtypes v = some (.ok out) ∧
    found (some (.ok out)) = some (⟨3, 1, 2, .val 7⟩, some (Writer.Demo.x 2)) ∧ v.arrived.map Sample.asTrajectory = [.ok [⟨.int32, [2], [2, 3]⟩]] := by
  have h : (((Service.init (newTables EndToEndDemo.cfgs)).run wire evs).any fun srv =>
      (checkedRun config srv.written allowedB (ClientSampler.init config 0, .none) (cev (srv.written 7))).any fun x =>
        decide ((∀ q ∈ x.2.opened, ∀ r ∈ Service.sampleRequests q evs, r ∈ x.1.sent) ∧
          found (sample dtypes x.1) = some (⟨3, 1, 2, .val 7⟩, some (Writer.Demo.x 2)) ∧ x.1.arrived.map Sample.asTrajectory = [.ok [⟨.int32, [2], [2, 3]⟩]])) = true := by decide +kernel
  rw [Option.any_eq_true] at h
  obtain ⟨srv, hv, h⟩ := h
  rw [Option.any_eq_true] at h
  obtain ⟨⟨v, L⟩, hu, h⟩ := h
  simp only [decide_eq_true_eq] at h
  obtain ⟨h1, h2⟩ := checkedRun_ok allowed_of (x := (ClientSampler.init config 0, .none)) .init .init hu
  obtain ⟨k1, k2, k3⟩ := h
  obtain ⟨out, ho⟩ : ∃ out, sample dtypes v = some (.ok out) := by
    unfold found at k2
    split at k2
    · exact ⟨_, by assumption⟩
    · cases k2
  exact ⟨srv, v, L, out, hv, by simpa using h1, by simpa [Run] using h2, k1, ho, by rw [← ho]; exact k2, k3⟩

/-- A wrong number of types is `InvalidArgument`, a wrong type `Internal`. -/
theorem demo_refused : ∃ v, (∃ evs, Run config 0 evs v) ∧
    sample (.seq []) v = some (.raised (.status .invalidArgument)) ∧ sample (.seq [.leaf .float]) v = some (.raised (.status .internal)) := by
  obtain ⟨srv, v, L, out, _, _, h1, _, h2, _⟩ := demo
  refine ⟨v, ⟨_, h1⟩, ?_⟩
  unfold sample at h2
  split at h2
  · cases h2
  rename_i r hr
  have hl : (dtypes.flattenWithPath).length = 1 ∧ (dtypes.flattenWithPath).map Prod.snd = [.int32] := by decide +kernel
  rw [hl.1] at hr
  rw [hl.2] at h2
  have h0 : (PTree.seq [] : PTree DType).flattenWithPath.length = 0 := by decide +kernel
  have h3 : (PTree.seq [.leaf .float] : PTree DType).flattenWithPath.length = 1 ∧ (PTree.seq [.leaf .float] : PTree DType).flattenWithPath.map Prod.snd = [.float] := by
    decide +kernel
  rcases r with o | e | _
  · unfold typed at h2
    split at h2
    · cases h2
    · cases h2
    rename_i o' ho
    split at ho
    · rename_i o1 heq
      cases heq
      split at ho
      · rename_i hty
        cases ho
        constructor
        · unfold sample
          have : compute (PTree.seq [] : PTree DType).flattenWithPath.length v = some (.err .invalidArgument) := by
            rw [h0]
            unfold compute at hr ⊢
            split at hr
            · cases hr
            rename_i hdd
            rw [if_neg hdd]
            split at hr
            · cases hr
            · cases hr
            · rename_i rows _ _ hlog
              split at hr
              · cases hr
              · rename_i hact
                split at hr
                · rw [if_neg (by omega)]
                · cases hr
            · cases hr
          rw [this]
          rfl
        · unfold sample
          rw [h3.1, hr]
          simp only [typed, hty, h3.2]
          rfl
      · cases ho
    · cases ho
    · cases ho
  · simp only [typed] at h2
    cases h2
  · simp only [typed] at h2
    cases h2

end Demo

/-- C109 is false for items of more than one step: "Samples an item from the replay" (tf_client.py:56), but only the first step of the item is returned, and no error. Here the
item has the steps 2 and 3. -/
theorem C109_whole_item_false : ∃ c evs v out t, cfg "t" none (.ok .empty) = .ok c ∧ Run c 0 evs v ∧ sample Demo.dtypes v = some (.ok out) ∧ out.data = .nested t ∧
    t.at? [.key "x"] = some ⟨.int32, [], [2]⟩ ∧ v.arrived.map Sample.asTrajectory = [.ok [⟨.int32, [2], [2, 3]⟩]] := by
  obtain ⟨srv, v, L, out, _, _, h1, _, h2, h3, h4⟩ := Demo.demo
  obtain ⟨info, d⟩ := out
  cases d with
  | flat a => cases h3
  | nested t =>
    refine ⟨Demo.config, _, v, _, t, Demo.config_ok, h1, h2, rfl, ?_, h4⟩
    simp only [Demo.found, Option.some.injEq, Prod.mk.injEq] at h3
    exact h3.2

end TFSample
end Verif
