import Verif.Proofs.ClientSamplerLog
import Verif.Proofs.SampleSync
import Verif.Proofs.SampleCodes
import Verif.Proofs.ClientSamplerRun
import Verif.Props.C44_C46_Sample
/-
C45: `max_samples`. C68: `Close` of a sampler.
-/
namespace Verif
open ClientSampler

/-- Options that pass `Validate` make a sampler of a server or of a table of the same process: no check of the constructors fails. What
is proved below about valid samplers is thus true of all samplers that a client makes. -/
theorem C45_options {o : SamplerOptions} (h : o.validate = none) (table : String) (here : Option Table) (spec : Option (List TensorSpec)) :
    ∃ c, SamplerCfg.make o table (here.map Table.defaultBatch) spec = .ok c ∧ c.Valid ∧ c.spec = spec ∧ c.timeout = o.timeout ∧
      (c.max = if o.maxSamples = -1 then int64Max else o.maxSamples) := by
  obtain ⟨localDefault, hl, hl'⟩ : ∃ d : Option Int, here.map Table.defaultBatch = d ∧ ∀ x, d = some x → 1 ≤ x := by
    refine ⟨_, rfl, ?_⟩
    intro x hx
    obtain ⟨t, _, rfl⟩ := Option.map_eq_some_iff.mp hx
    exact defaultBatch_pos t
  rw [hl]
  replace hl := hl'
  unfold SamplerOptions.validate at h
  split at h
  · cases h
  rename_i h1
  split at h
  · cases h
  rename_i h2
  split at h
  · cases h
  rename_i h3
  split at h
  · cases h
  rename_i h4
  split at h
  · cases h
  split at h
  · cases h
  rename_i h6
  have hmax : 0 < o.max := by
    unfold SamplerOptions.max
    split
    · decide
    · rename_i g
      unfold SamplerOptions.unlimited at h1 g
      omega
  have hauto : autoSelect = -1 := rfl
  have hunl : SamplerOptions.unlimited = -1 := rfl
  have hw : 1 ≤ o.workers := by
    unfold SamplerOptions.workers
    have : (1 : Int) ≤ if o.numWorkers = autoSelect then 1 else o.numWorkers := by
      split <;> omega
    have : (1 : Int) ≤ Max.max 1 (o.max.tdiv o.inFlight) := Int.le_max_left _ _
    omega
  have hb : ∀ d, localDefault = some d → 1 ≤ min (if o.flexible = autoSelect then d else o.flexible) o.inFlight := by
    intro d hd
    have := hl d hd
    have : 1 ≤ if o.flexible = autoSelect then d else o.flexible := by
      split <;> omega
    omega
  unfold SamplerCfg.make
  rw [if_neg (by omega), if_neg (by omega)]
  have hcfg : ∀ src : SampleSource, (∀ t p f, src = .grpc t p f → 0 < p) → (∀ b, src = .here b → 0 < b) →
      SamplerCfg.Valid ⟨o.max, if o.perStream = autoSelect then 10000 else o.perStream, (Max.max o.numWorkers 1).toNat, o.workers.toNat,
        o.timeout, src, spec⟩ := by
    intro src hg hh
    refine ⟨hmax, ?_, ?_, ?_, hg, hh⟩
    · show (0 : Int) < if o.perStream = autoSelect then 10000 else o.perStream
      split <;> omega
    · show 0 < (Max.max o.numWorkers 1).toNat
      have : (1 : Int) ≤ Max.max o.numWorkers 1 := Int.le_max_right _ _
      omega
    · show 0 < o.workers.toNat
      omega
  cases localDefault with
  | none =>
    simp only [Bool.false_eq_true, if_false]
    rw [if_neg (by omega), if_neg (by omega), if_neg (by omega), if_neg (by omega)]
    refine ⟨_, rfl, hcfg _ ?_ ?_, rfl, rfl, rfl⟩
    · intro t p f g
      cases g
      omega
    · intro b g
      cases g
  | some d =>
    have hbd := hb d rfl
    simp only
    rw [if_neg (by simp; omega), if_neg (by omega), if_neg (by omega), if_neg (by omega), if_neg (by omega)]
    refine ⟨_, rfl, hcfg _ ?_ ?_, rfl, rfl, rfl⟩
    · intro t p f g
      cases g
    · intro b g
      cases g
      omega

/-- A sampler that is alive satisfies the invariant. -/
theorem ClientSampler.Reach.inv {c : SamplerCfg} (hc : c.Valid) {now : Int} {P : ClientSampler → Event → Prop}
    (hP : ∀ v e, P v e → Faithful v e) {evs : List Event} {v : ClientSampler} (h : Reach c now P evs v) (hd : v.dead = false) :
    SInv c v := by
  rcases SInv.reach hc hP h with g | g
  · rw [hd] at g; cases g
  · exact g

/-- Where a schedule comes from. -/
theorem ClientSampler.Reach.last {c : SamplerCfg} {now : Int} {P : ClientSampler → Event → Prop} {evs : List Event} {v : ClientSampler}
    (h : Reach c now P evs v) (hd : v.dead = true) : ∃ evs0 e v0, Reach c now P evs0 v0 ∧ v0.dead = false ∧ Eff c v0 e v := by
  cases h with
  | init => simp [ClientSampler.init] at hd
  | @step evs e v0 _ h0 _ hs =>
    refine ⟨evs, e, v0, h0, ?_, Eff.step hs⟩
    unfold ClientSampler.step at hs
    split at hs
    · cases hs
    · rename_i g
      simpa using g

/-- C45: a sampler never returns more than `max_samples` samples, with any number of workers and callers, whatever errors occur, as long
as the server does not send more than it is asked for. -/
theorem C45_at_most {c : SamplerCfg} (hc : c.Valid) {now : Int} {evs : List Event} {v : ClientSampler}
    (h : Reach c now Faithful evs v) : (v.delivered : Int) ≤ c.max := by
  have halive : ∀ {evs v}, Reach c now Faithful evs v → v.dead = false → (v.delivered : Int) ≤ c.max := by
    intro evs v h hd
    have g := h.inv hc (fun _ _ g => g) hd
    have := g.bound
    have := g.ret
    omega
  cases hd : v.dead with
  | false => exact halive h hd
  | true =>
    obtain ⟨evs0, e, v0, h0, hd0, he⟩ := h.last hd
    have hlog : v.log = v0.log := by
      rcases he.log with e | ⟨_, _, _, _, e, _⟩
      · exact e
      · rw [hd] at e; cases e
    have := halive h0 hd0
    unfold delivered at *
    rw [hlog]
    exact this

/-- C45: what is asked from the server, without what was asked for on streams that ended before it came, is never more than
`max_samples`. -/
theorem C45_requests_partial {c : SamplerCfg} (hc : c.Valid) (hg : c.isGrpc = true) {now : Int} {evs : List Event} {v : ClientSampler}
    (h : Reach c now Faithful evs v) : v.asked ≤ c.max + v.abandoned := by
  have halive : ∀ {evs v}, Reach c now Faithful evs v → v.dead = false → v.asked ≤ c.max + v.abandoned := by
    intro evs v h hd
    have g := h.inv hc (fun _ _ g => g) hd
    have := g.sent hg
    have := g.room
    have := total_le v g.phase
    omega
  cases hd : v.dead with
  | false => exact halive h hd
  | true =>
    obtain ⟨evs0, e, v0, h0, hd0, he⟩ := h.last hd
    have hsent : v.sent = v0.sent := by
      rcases he.sent with e | ⟨_, _, _, _, _, _, _, _, _, e, _⟩
      · exact e
      · rw [hd] at e; cases e
    have := halive h0 hd0
    rw [he.dead hd]
    unfold asked at *
    rw [hsent]
    exact this

/-- C45: every request asks for at least one sample and no more than `max_in_flight_samples_per_worker`. -/
theorem C45_request_size {c : SamplerCfg} (hc : c.Valid) {now : Int} {P : ClientSampler → Event → Prop} {evs : List Event}
    {v : ClientSampler} (h : Reach c now P evs v) {r : SampleReq} (hr : r ∈ v.sent) :
    ∃ t p f, c.source = .grpc t p f ∧ r.table = t ∧ 1 ≤ r.num ∧ r.num ≤ p ∧ r.flexible = f := by
  induction h with
  | init => simp [ClientSampler.init] at hr
  | step _ _ hs ih =>
    rcases (Eff.step hs).sent with e | ⟨i, n, got, t, p, f, _, hsrc, hlt, _, e⟩
    · rw [e] at hr
      exact ih hr
    · rw [e] at hr
      rcases List.mem_append.mp hr with g | g
      · exact ih g
      · simp only [List.mem_singleton] at g
        subst g
        have := hc.request t p f hsrc
        refine ⟨t, p, f, hsrc, rfl, ?_, ?_, rfl⟩
        · show 1 ≤ min p (n - got)
          omega
        · show min p (n - got) ≤ p
          omega

/-- C45: end of sequence, exactly. A call for which `Pop` fails returns an error (it never goes on without a sample), and that error is
`OutOfRange` if and only if `max_samples` samples have been returned, unless `OutOfRange` is what a worker got from the server. -/
theorem C45_end {c : SamplerCfg} (hc : c.Valid) {now : Int} {evs : List Event} {v : ClientSampler}
    (h : Reach c now Faithful evs v) (hd : v.dead = false) {x : Nat} {k : SampleCall} (hx : v.calls.get? x = some (.failed k)) :
    ∃ e v', step c v (.finish x) = some v' ∧ v'.log = v.log ++ [.error e] ∧ v'.dead = false ∧
      (v.status ≠ some .outOfRange → (e = .outOfRange ↔ (v.delivered : Int) = c.max)) ∧
      ((v.delivered : Int) = c.max → e = .outOfRange) := by
  have g := h.inv hc (fun _ _ g => g) hd
  have hne := g.popStatus (g.failed x k hx)
  obtain ⟨e, he⟩ := Option.ne_none_iff_exists'.mp hne
  refine ⟨e, v.ret x (.error e), ?_, rfl, hd, ?_, ?_⟩
  · unfold ClientSampler.step ClientSampler.finish
    rw [if_neg (by simp [hd])]
    simp only [hx, he]
  · intro hst
    have hret := g.ret
    unfold popStatus at he
    split at he
    · rename_i e1
      cases he
      simp
      omega
    · rename_i e1
      split at he
      · cases he
        simp
        omega
      · constructor
        · intro ee
          rw [ee] at he
          exact absurd he hst
        · intro ee
          omega
  · intro hm
    have hret := g.ret
    unfold popStatus at he
    rw [if_pos (by omega)] at he
    cases he
    rfl

/-- C45: once `max_samples` samples have been returned, every call that waits and every further call of any kind returns `OutOfRange`
without waiting. -/
theorem C45_end_always {c : SamplerCfg} (hc : c.Valid) {now : Int} {evs : List Event} {v : ClientSampler}
    (h : Reach c now Faithful evs v) (hd : v.dead = false) (hm : (v.delivered : Int) = c.max) :
    (∀ x, Waits v x → ∃ v', run c v [.pop x, .finish x] = some v' ∧ v'.log = v.log ++ [.error .outOfRange]) ∧
    ∀ x k v1, step c v (.call x k) = some v1 →
      ∃ v', run c v [.call x k, .pop x, .finish x] = some v' ∧ v'.log = v.log ++ [.error .outOfRange] := by
  have hwait : ∀ {evs v}, Reach c now Faithful evs v → v.dead = false → (v.delivered : Int) = c.max → ∀ x, Waits v x →
      ∃ v', run c v [.pop x, .finish x] = some v' ∧ v'.log = v.log ++ [.error .outOfRange] := by
    intro evs v h hd hm x hx
    obtain ⟨k, t, hx⟩ := hx
    have g := h.inv hc (fun _ _ g => g) hd
    have hq : v.queueClosed = true := g.full (by rw [g.ret]; exact hm)
    have hp : step c v (.pop x) = some { v with calls := v.calls.insert x (.failed k) } := by
      unfold ClientSampler.step ClientSampler.pop
      rw [if_neg (by simp [hd])]
      simp only [hx, hq, if_true]
    have h1 : Reach c now Faithful (evs ++ [.pop x]) { v with calls := v.calls.insert x (.failed k) } := h.step trivial hp
    obtain ⟨e, v', hs, hl, _, _, he⟩ := C45_end hc h1 hd (x := x) (k := k) (by rw [AMap.get?_insert_self])
    refine ⟨v', ?_, ?_⟩
    · simp [run, hp, hs]
    · rw [hl, he hm]
  refine ⟨hwait h hd hm, ?_⟩
  intro x k v1 hs
  have g := h.inv hc (fun _ _ g => g) hd
  have h1 : Reach c now Faithful (evs ++ [.call x k]) v1 := h.step trivial hs
  have hpr : v.partlyRead = false := by
    have hb := g.bound
    have hr := g.ret
    cases hp : v.partlyRead with
    | false => rfl
    | true =>
      rw [hp] at hb
      simp only [if_true] at hb
      omega
  have hs0 := hs
  unfold ClientSampler.step ClientSampler.call at hs0
  rw [if_neg (by simp [hd])] at hs0
  simp only at hs0
  split at hs0
  · cases hs0
  · rw [if_neg (by
      rintro ⟨_, ha⟩
      unfold partlyRead at hpr
      rw [hpr] at ha
      cases ha)] at hs0
    cases hs0
    obtain ⟨v', hr, hl⟩ := hwait h1 hd hm x ⟨k, v.clock, AMap.get?_insert_self _ _ _⟩
    refine ⟨v', ?_, hl⟩
    simp only [run] at hr ⊢
    rw [hs]
    exact hr

/-- C45: `OutOfRange` is never returned before `max_samples` samples have been returned, unless it is what a worker got from the
server. -/
theorem C45_end_not_before {c : SamplerCfg} (hc : c.Valid) {now : Int} {evs : List Event} {v : ClientSampler}
    (h : Reach c now Faithful evs v) (hst : v.status ≠ some .outOfRange) {a b : List SampleOut}
    (hl : v.log = a ++ .error .outOfRange :: b) : ((a.countP SampleOut.complete : Nat) : Int) = c.max := by
  induction h generalizing a b with
  | init => simp [ClientSampler.init] at hl
  | @step evs e v0 v h0 hf hs ih =>
    have he := Eff.step hs
    have hst0 : v0.status ≠ some .outOfRange := by
      intro g
      exact hst ((he.status (by rw [g]; simp)).trans g)
    have hd0 : v0.dead = false := by
      have hs := hs
      unfold ClientSampler.step at hs
      split at hs
      · cases hs
      · rename_i g
        simpa using g
    rcases he.log with e1 | ⟨x, o, _, e1, _, hr, _⟩
    · exact ih hst0 (e1 ▸ hl)
    · rw [e1] at hl
      rcases List.eq_nil_or_concat b with hb | ⟨b', o', hb⟩
      · subst hb
        obtain ⟨e2, e3⟩ := List.append_inj' hl rfl
        simp only [List.cons.injEq, and_true] at e3
        subst e3
        subst e2
        have g := h0.inv hc (fun _ _ g => g) hd0
        rw [show v0.log.countP SampleOut.complete = v0.delivered from rfl, ← g.ret]
        rcases hr with ⟨k, e, hx, hp, ho⟩ | hr
        · cases ho
          unfold popStatus at hp
          split at hp
          · rename_i hret
            exact hret
          · split at hp
            · cases hp
            · exact absurd hp hst0
        · exfalso
          have hval : ∀ k spec d, SampleCall.validate k spec d ≠ some .outOfRange := by
            intro k spec d
            unfold SampleCall.validate
            split
            · simp
            · split
              · simp
              · split <;> simp
          rcases hr with ⟨s, _, ⟨e, g1, g2⟩ | ⟨n, cols, _, ⟨e, g1, g2⟩ | ⟨_, g2⟩⟩⟩ | ⟨s, _, ⟨e, g1, g2⟩ | ⟨cols, _, ⟨e, g1, g2⟩ | ⟨_, g2⟩⟩⟩ |
            ⟨s, _, _, ⟨e, g1, g2⟩ | ⟨rows, last, s', _, ⟨e, g1, g2⟩ | ⟨_, g2⟩⟩⟩ <;> cases g2
          · exact (Sample.asBatched_code g1).not_range rfl
          · exact hval _ _ _ g1
          · exact (Sample.asTrajectory_code g1).not_range rfl
          · exact hval _ _ _ g1
          · exact (Sample.deliver_code g1).not_range rfl
          · exact hval _ _ _ g1
      · subst hb
        rw [List.concat_eq_append, ← List.cons_append, ← List.append_assoc] at hl
        exact ih hst0 (List.append_inj_left' hl rfl)

/-- C45: no deadlock before the end. While a call waits, fewer than `max_samples` samples have been returned, and there was no error
(neither of a worker nor of a call), the sampler can take a step of its own, or a worker waits for the server or the table. Calls of
`GetNextTimestep` must not be mixed with others while a sample is partly read (see `C45_mixed_false`). -/
theorem C45_progress {c : SamplerCfg} (hc : c.Valid) {now : Int} {evs : List Event} {v : ClientSampler}
    (h : Reach c now Faithful evs v) (hd : v.dead = false) {x : Nat} (hx : Waits v x) (hst : v.status = none) (hcl : v.closed = false)
    (hlog : ∀ o ∈ v.log, SampleOut.isError o = false) (hmix : v.partlyRead = false) (hdel : (v.delivered : Int) < c.max) :
    (∃ e v', e.isOwn = true ∧ step c v e = some v') ∨ ∃ i, WaitsOutside v i :=
  (h.inv hc (fun _ _ g => g) hd).progress hc hd (workers_length h) hx hst hcl hlog (fun _ => hmix) hdel

/-! ### Where the claim fails -/

namespace SamplerDemo
open SampleDemo

/-- The options: one sample, asked for one by one. -/
def opts (m inFlight : Int) : SamplerOptions := ⟨m, inFlight, 1, -1, some 5000000000, -1⟩

/-- A sampler of a server, and one of a table of the same process. -/
def grpc (m inFlight : Int) (spec : Option (List TensorSpec)) : SamplerCfg :=
  ⟨m, 10000, 1, 1, some 5000000000, .grpc "t" inFlight (-1), spec⟩
def here (m : Int) (spec : Option (List TensorSpec)) : SamplerCfg := ⟨m, 10000, 1, 1, some 5000000000, .here 1, spec⟩

theorem grpc_valid {m inFlight : Int} (hm : 0 < m) (hi : 0 < inFlight) (spec : Option (List TensorSpec)) : (grpc m inFlight spec).Valid :=
  ⟨hm, (by decide : (0 : Int) < 10000), Nat.one_pos, Nat.one_pos, (by intro t a b g; cases g; exact hi), (by intro b g; cases g)⟩

theorem here_valid {m : Int} (hm : 0 < m) (spec : Option (List TensorSpec)) : (here m spec).Valid :=
  ⟨hm, (by decide : (0 : Int) < 10000), Nat.one_pos, Nat.one_pos, (by intro t a b g; cases g), (by intro b g; cases g; exact Int.one_pos)⟩

/-- These are what the constructors make of the options. -/
example : (match SamplerCfg.make (opts 2 1) "t" none none with
  | .ok c => decide (c.max = 2 ∧ c.cap = 1 ∧ c.workers = 1 ∧ c.perStream = 10000 ∧ c.source = .grpc "t" 1 (-1))
  | _ => false) = true := by decide

/-- The entries of a sample as the server sends it. -/
def entries : List Entry := splitSync (fun e => e.data.length) 1 item

/-- The sampler of a server gets one sample and returns it. -/
def one (x : Nat) : List Event := [.call x .trajectory, .work 0, .write 0 none, .response 0 entries, .work 0, .pop x, .finish x]

/-- A sample with two timesteps. -/
def item2 : SampledItem := ⟨info, [⟨[⟨1, 1, 2, 0⟩], false⟩], [ch1]⟩

end SamplerDemo
open SamplerDemo

/-- The hypotheses of the theorems above are met: two samples are returned, the next call gets `OutOfRange`. -/
example : ∃ v, Reach (grpc 2 1 none) 0 Faithful ([.work 0] ++ one 0 ++ [.call 1 .trajectory, .write 0 none, .response 0 SamplerDemo.entries,
      .work 0, .pop 1, .finish 1, .call 2 .trajectory, .pop 2, .finish 2]) v ∧
    v.delivered = 2 ∧ v.asked = 2 ∧ v.abandoned = 0 ∧ v.log.getLast? = some (.error .outOfRange) := by
  obtain ⟨v, h1, h2⟩ := after_init (c := grpc 2 1 none) (now := 0) (P := fun v => decide (v.delivered = 2 ∧ v.asked = 2 ∧ v.abandoned = 0 ∧
    v.log.getLast? = some (.error .outOfRange))) (evs := [.work 0] ++ one 0 ++ [.call 1 .trajectory, .write 0 none,
      .response 0 SamplerDemo.entries, .work 0, .pop 1, .finish 1, .call 2 .trajectory, .pop 2, .finish 2]) (by decide +kernel)
  exact ⟨v, h1, by simpa using h2⟩

/-- C45 is false as far as the total number of samples asked for is concerned: with `max_samples` = 1 and nobody waiting, the stream ends
with a timeout of the rate limiter, and the worker asks again on the next stream. No error is ever reported. -/
theorem C45_requests_false : ∃ evs v, Reach (grpc 1 1 none) 0 Faithful evs v ∧ v.dead = false ∧ v.status = none ∧ v.log = [] ∧
    v.asked > (grpc 1 1 none).max := by
  obtain ⟨v, h1, h2⟩ := after_init (c := grpc 1 1 none) (now := 0) (P := fun v => decide (v.dead = false ∧ v.status = none ∧ v.log = [] ∧
    v.asked > (grpc 1 1 none).max)) (evs := [.work 0, .work 0, .write 0 none, .streamEnd 0 (some .deadlineExceeded) true, .work 0, .work 0,
      .work 0, .write 0 none]) (by decide +kernel)
  exact ⟨_, v, h1, by simpa using h2⟩

/-- A call that will wait until `Close`. -/
def WaitsForever (c : SamplerCfg) (v : ClientSampler) (x : Nat) : Prop :=
  ∀ evs v', Event.close ∉ evs → run c v evs = some v' → Waits v' x

/-- A sample that the sampler rejects counts as requested and not as returned: with `max_samples` = 1 the next call waits forever (until
`Close`), although neither an error of a worker nor the end of the sequence has been seen. -/
theorem C45_reject_hang : ∃ spec evs v x, Reach (SamplerDemo.here 1 (some spec)) 0 Faithful evs v ∧ v.delivered = 0 ∧ v.status = none ∧
    v.log = [.error .invalidArgument] ∧ WaitsForever (SamplerDemo.here 1 (some spec)) v x := by
  obtain ⟨v, h1, h2⟩ := after_init (c := SamplerDemo.here 1 (some [])) (now := 0)
    (P := fun v => stuckB (SamplerDemo.here 1 (some [])) 1 v && decide (v.delivered = 0 ∧ v.log = [.error .invalidArgument]))
    (evs := [.work 0, .work 0, .answer 0 (.ok [SampleDemo.item]), .work 0, .work 0, .work 0, .call 0 .trajectory, .pop 0, .finish 0,
      .call 1 .trajectory]) (by decide +kernel)
  simp only [Bool.and_eq_true, decide_eq_true_eq] at h2
  have hst := stuck_of h2.1
  exact ⟨[], _, v, 1, h1, h2.2.1, hst.status, h2.2.2, fun evs v' he hr => (hst.run evs he hr).waits⟩

/-- Without any error: if `GetNextTimestep` has returned a part of the last sample, `GetNextSample` waits forever. -/
theorem C45_mixed_false : ∃ evs v x, Reach (SamplerDemo.here 1 none) 0 Faithful evs v ∧ v.delivered = 0 ∧ v.status = none ∧
    (∀ o ∈ v.log, SampleOut.isError o = false) ∧ WaitsForever (SamplerDemo.here 1 none) v x := by
  obtain ⟨v, h1, h2⟩ := after_init (c := SamplerDemo.here 1 none) (now := 0)
    (P := fun v => stuckB (SamplerDemo.here 1 none) 1 v && decide (v.delivered = 0) && v.log.all fun o => !SampleOut.isError o)
    (evs := [.work 0, .work 0, .answer 0 (.ok [item2]), .work 0, .work 0, .work 0, .call 0 .timestep, .pop 0, .finish 0,
      .call 1 .batched]) (by decide +kernel)
  simp only [Bool.and_eq_true, decide_eq_true_eq, List.all_eq_true, Bool.not_eq_true'] at h2
  have hst := stuck_of h2.1.1
  exact ⟨_, v, 1, h1, h2.1.2, hst.status, h2.2, fun evs v' he hr => (hst.run evs he hr).waits⟩

/-! ### C68: closing -/

/-- C68: when `Close` has returned, all threads have ended and the queue is closed; a call of `GetNextSample` or `GetNextTrajectory`, or one
of `GetNextTimestep` when no sample is partly read, returns `Cancelled` without waiting, or `OutOfRange` if `max_samples` samples had been
returned. -/
theorem C68_close_partial {c : SamplerCfg} (hc : c.Valid) {now : Int} {evs : List Event} {v : ClientSampler}
    (h : Reach c now Faithful evs v) (hd : v.dead = false) (hdone : v.closing = .done) :
    (∀ w ∈ v.workers, w.phase = .stopped) ∧
    (∀ x, Waits v x → ∃ v', run c v [.pop x, .finish x] = some v' ∧
      v'.log = v.log ++ [.error (if (v.delivered : Int) = c.max then .outOfRange else .cancelled)]) ∧
    ∀ x k v1, step c v (.call x k) = some v1 → (k = .timestep → v.partlyRead = false) →
      ∃ v', run c v [.call x k, .pop x, .finish x] = some v' ∧
        v'.log = v.log ++ [.error (if (v.delivered : Int) = c.max then .outOfRange else .cancelled)] := by
  have hwait : ∀ {evs v}, Reach c now Faithful evs v → v.dead = false → v.closing = .done → ∀ x, Waits v x →
      ∃ v', run c v [.pop x, .finish x] = some v' ∧
        v'.log = v.log ++ [.error (if (v.delivered : Int) = c.max then .outOfRange else .cancelled)] := by
    intro evs v h hd hdone x hx
    obtain ⟨k, t, hx⟩ := hx
    have g := h.inv hc (fun _ _ g => g) hd
    have hq : v.queueClosed = true := (g.joining (.inr hdone)).1
    have hcl : v.closed = true := g.closing.mpr (by rw [hdone]; simp)
    have hp : step c v (.pop x) = some { v with calls := v.calls.insert x (.failed k) } := by
      unfold ClientSampler.step ClientSampler.pop
      rw [if_neg (by simp [hd])]
      simp only [hx, hq, if_true]
    have hret := g.ret
    have hps : ({ v with calls := v.calls.insert x (.failed k) } : ClientSampler).popStatus c =
        some (if (v.delivered : Int) = c.max then .outOfRange else .cancelled) := by
      unfold popStatus
      simp only [hcl, if_true, hret]
      split <;> rfl
    have hf : step c { v with calls := v.calls.insert x (.failed k) } (.finish x) =
        some (({ v with calls := v.calls.insert x (.failed k) } : ClientSampler).ret x
          (.error (if (v.delivered : Int) = c.max then .outOfRange else .cancelled))) := by
      unfold ClientSampler.step ClientSampler.finish
      rw [if_neg (by simp [hd])]
      simp only [AMap.get?_insert_self, hps]
    refine ⟨({ v with calls := v.calls.insert x (.failed k) } : ClientSampler).ret x
      (.error (if (v.delivered : Int) = c.max then .outOfRange else .cancelled)), ?_, rfl⟩
    simp [run, hp, hf]
  have g := h.inv hc (fun _ _ g => g) hd
  refine ⟨g.done hdone, hwait h hd hdone, ?_⟩
  intro x k v1 hs hk
  have h1 : Reach c now Faithful (evs ++ [.call x k]) v1 := h.step trivial hs
  have hs0 := hs
  unfold ClientSampler.step ClientSampler.call at hs0
  rw [if_neg (by simp [hd])] at hs0
  simp only at hs0
  split at hs0
  · cases hs0
  · rw [if_neg (by
      rintro ⟨hk', ha⟩
      have hpr := hk hk'
      unfold partlyRead at hpr
      rw [hpr] at ha
      cases ha)] at hs0
    cases hs0
    obtain ⟨v', hr, hl⟩ := hwait h1 hd hdone x ⟨k, v.clock, AMap.get?_insert_self _ _ _⟩
    refine ⟨v', ?_, hl⟩
    simp only [run] at hr ⊢
    rw [hs]
    exact hr

/-- C68: `Close` waits for nothing but the answers of the server or the table to the workers: as long as it has not returned, it can go on,
or a worker can, or a worker waits outside. Neither a full queue nor callers that do not come back keep it. -/
theorem C68_close_returns {c : SamplerCfg} (hc : c.Valid) {now : Int} {evs : List Event} {v : ClientSampler}
    (h : Reach c now Faithful evs v) (hd : v.dead = false) (hcl : v.closing ≠ .notCalled) (hnd : v.closing ≠ .done) :
    (∃ v', step c v .closeStep = some v') ∨ (∃ i v', step c v (.work i) = some v') ∨ ∃ i, WaitsOutside v i := by
  have g := h.inv hc (fun _ _ g => g) hd
  have hstep : ∀ e v', (match e with
      | .closeStep => v.closeStep
      | .work i => v.work c i
      | _ => none) = some v' → step c v e = some v' := by
    intro e v' he
    unfold ClientSampler.step
    rw [if_neg (by simp [hd])]
    cases e <;> first | exact he | cases he
  cases hph : v.closing with
  | notCalled => exact absurd hph hcl
  | done => exact absurd hph hnd
  | cancelling i =>
    left
    by_cases hi : i < v.workers.length
    · exact ⟨_, hstep .closeStep _ (by simp only [ClientSampler.closeStep, hph, if_pos hi]; rfl)⟩
    · exact ⟨_, hstep .closeStep _ (by simp only [ClientSampler.closeStep, hph, if_neg hi]; rfl)⟩
  | joining =>
    obtain ⟨hq, hwc⟩ := g.joining (.inl hph)
    have hclosed : v.closed = true := g.closing.mpr hcl
    by_cases hall : v.workers.all SWorker.isStopped = true
    · left
      exact ⟨_, hstep .closeStep _ (by simp only [ClientSampler.closeStep, hph, if_pos hall]; rfl)⟩
    · right
      have hall' := hall
      simp only [List.all_eq_true, Classical.not_forall] at hall'
      obtain ⟨w, hw, hns⟩ := hall'
      obtain ⟨i, hi⟩ := List.mem_iff_getElem?.mp hw
      obtain ⟨cl, ph⟩ := w
      have hclw : cl = true := hwc _ hw
      subst hclw
      have hown : (∃ v', v.work c i = some v') → (∃ i v', step c v (.work i) = some v') ∨ ∃ i, WaitsOutside v i :=
        fun ⟨v', hv'⟩ => .inl ⟨i, v', hstep (.work i) v' hv'⟩
      have hpush : ∀ s, push c v i s = some (v, false) := by
        intro s
        unfold push
        rw [if_pos hq]
      cases ph with
      | idle =>
        apply hown
        unfold ClientSampler.work
        rw [hi]
        simp only [take]
        rw [if_pos (by simp [shouldStop, hclosed])]
        exact ⟨_, rfl⟩
      | stopped => exact absurd rfl hns
      | report n got st =>
        apply hown
        unfold ClientSampler.work
        rw [hi]
        exact ⟨_, rfl⟩
      | fetch n got f =>
        cases f with
        | opening =>
          apply hown
          unfold ClientSampler.work
          rw [hi]
          exact ⟨_, rfl⟩
        | asking =>
          by_cases hlt : got < n
          · exact .inr ⟨i, true, n, got, _, hi, .inl ⟨rfl, hlt⟩⟩
          · apply hown
            unfold ClientSampler.work
            rw [hi]
            simp only [if_neg hlt]
            exact ⟨_, rfl⟩
        | reading want sampled parts => exact .inr ⟨i, true, n, got, _, hi, .inr (.inl ⟨_, _, _, rfl⟩)⟩
        | pushing want sampled s rest =>
          apply hown
          unfold ClientSampler.work
          rw [hi]
          simp only [hpush]
          exact ⟨_, rfl⟩
        | checking final base =>
          apply hown
          unfold ClientSampler.work
          rw [hi]
          by_cases hlt : got < n
          · simp only [if_pos hlt, if_true]
            exact ⟨_, rfl⟩
          · simp only [if_neg hlt]
            exact ⟨_, rfl⟩
        | sampling final base batch dl => exact .inr ⟨i, true, n, got, _, hi, .inr (.inr ⟨_, _, _, _, rfl⟩)⟩
        | pushingHere final base s rest =>
          apply hown
          unfold ClientSampler.work
          rw [hi]
          simp only [hpush]
          exact ⟨_, rfl⟩

/-- C68 is false for `GetNextTimestep` when a sample is partly read: after `Close` has returned it still returns data, where sampler.h:330-332
promises `Cancelled`. -/
theorem C68_close_false : ∃ evs v v', Reach (SamplerDemo.here 1 none) 0 Faithful evs v ∧ v.closing = .done ∧
    run (SamplerDemo.here 1 none) v [.call 1 .timestep, .finish 1] = some v' ∧ v'.log = v.log ++ [.timestep [SampleDemo.row 2] true] := by
  obtain ⟨v, h1, h2⟩ := after_init (c := SamplerDemo.here 1 none) (now := 0)
    (P := fun v => decide (v.closing = .done) && match run (SamplerDemo.here 1 none) v [.call 1 .timestep, .finish 1] with
      | some v' => decide (v'.log = v.log ++ [.timestep [SampleDemo.row 2] true])
      | none => false)
    (evs := [.work 0, .work 0, .answer 0 (.ok [item2]), .work 0, .work 0, .work 0, .call 0 .timestep, .pop 0, .finish 0,
      .close, .closeStep, .closeStep, .work 0, .closeStep]) (by decide +kernel)
  simp only [Bool.and_eq_true, decide_eq_true_eq] at h2
  obtain ⟨h2, h3⟩ := h2
  split at h3
  · rename_i v' hr
    exact ⟨_, v, v', h1, h2, hr, by simpa using h3⟩
  · cases h3

/-- The hypotheses of C68 are met while a worker holds a sample for which there is no room in the queue, and after that. -/
example : ∃ v, Reach (grpc 3 3 none) 0 Faithful [.work 0, .work 0, .write 0 none, .response 0 (SamplerDemo.entries ++ SamplerDemo.entries),
      .work 0, .call 5 .trajectory, .pop 5, .call 6 .trajectory, .close, .closeStep, .closeStep, .work 0, .work 0, .closeStep] v ∧
    v.closing = .done ∧ Waits v 6 := by
  obtain ⟨v, h1, h2⟩ := after_init (c := grpc 3 3 none) (now := 0)
    (P := fun v => decide (v.closing = .done) && (v.calls.get? 6).any isPopping)
    (evs := [.work 0, .work 0, .write 0 none, .response 0 (SamplerDemo.entries ++ SamplerDemo.entries),
      .work 0, .call 5 .trajectory, .pop 5, .call 6 .trajectory, .close, .closeStep, .closeStep, .work 0, .work 0, .closeStep])
    (by decide +kernel)
  simp only [Bool.and_eq_true, decide_eq_true_eq, Option.any_eq_true] at h2
  obtain ⟨h2, p, h3, h4⟩ := h2
  refine ⟨v, h1, h2, ?_⟩
  cases p with
  | popping k t => exact ⟨k, t, h3⟩
  | failed _ => cases h4
  | holding _ _ => cases h4
  | stepping => cases h4

end Verif
