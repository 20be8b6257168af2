import Verif.Model.Worker
import Verif.Model.Sample
/-
Requests of `SampleStream` as any client can send them, and what the servers read from them.
-/
namespace Verif

/-- sampler.h:208 `kAutoSelectValue`. -/
def autoSelect : Int := -1

/-- reverb_service.proto `SampleStreamRequest`; `timeout` is `rate_limiter_timeout.milliseconds`, `none`
if the field is not set (reverb_service.proto:148-168). -/
structure SampleReq where
  table : String
  num : Int
  timeout : Option Int
  flexible : Int
  deriving DecidableEq

/-- A duration or point in time in nanoseconds; `none` is infinite (`absl::Duration` and `absl::Time`, as
used in reverb_service_impl.cc:283-288 and rate_limiter.cc:115-140). -/
abbrev Duration := Option Int

/-- `absl::Milliseconds` (as used in reverb_service_impl.cc:286). -/
def millis (ms : Int) : Int := ms * 1000000

/-- reverb_service_impl.cc:284-288: the timeout on the synchronous server. -/
def SampleReq.syncTimeout (r : SampleReq) : Duration :=
  match r.timeout with
  | none => none
  | some ms => if ms < 0 then none else some (millis ms)

/-- reverb_service_async_impl.cc:549-555: the timeout on the asynchronous server. -/
def SampleReq.asyncTimeout (r : SampleReq) : Duration :=
  match r.timeout with
  | none => none
  | some ms => if 0 < ms then some (millis ms) else none

/-- `absl::Now() + timeout` (rate_limiter.cc:131, table.cc:660). -/
def deadlineAt (now : Int) : Duration → Duration
  | none => none
  | some d => some (now + d)

/-- reverb_service_impl.cc:291-301 and reverb_service_async_impl.cc:536-548: the checks of the numbers in a request. -/
def SampleReq.valid (r : SampleReq) : Bool := decide (0 < r.num) && (decide (0 < r.flexible) || decide (r.flexible = autoSelect))

/-- table.cc:1119-1142 `DefaultFlexibleBatchSize`; a double is made an integer by rounding towards zero. The overflow that the code
speaks of does not happen with exact numbers. -/
def Table.defaultBatch (t : Table) : Int :=
  if 1 < t.limiter.spi then t.limiter.spi.floor
  else if t.limiter.spi = 1 ∧ ((t.maxSize : Rat) * 1000 < t.limiter.maxDiff - t.limiter.minDiff ∨ t.limiter.maxDiff - t.limiter.minDiff < 0) then
    if t.maxTimesSampled < 1 then 64 else t.maxTimesSampled
  else 1

/-- reverb_service_impl.cc:311-314 and reverb_service_async_impl.cc:561-564: the batch size that a request asks for. -/
def SampleReq.batch (r : SampleReq) (default : Int) : Int := if r.flexible = autoSelect then default else r.flexible

/-- How samples are put into messages: `size` is `ByteSizeLong` of an entry, `bytes` that of a chunk, `max` is
`kMaxSampleResponseSizeBytes`, and `content` tells the contents of the chunks, which the model of the
table leaves out (reverb_service_impl.cc:322-372, reverb_service_async_impl.cc:593-641). -/
structure Wire where
  size : Entry → Nat
  bytes : ChunkData → Nat
  max : Nat
  content : Key → ChunkData

/-- reverb_service_impl.cc:331-347 and reverb_service_async_impl.cc:606-627: what is sent of a sample. -/
def Sampled.sent (w : Wire) (s : Sampled) : SampledItem :=
  ⟨⟨s.item.key, s.probability, s.tableSize.toNat, s.priority, s.rateLimited⟩, s.item.traj, s.item.chunks.map fun c => w.content c.key⟩

end Verif
