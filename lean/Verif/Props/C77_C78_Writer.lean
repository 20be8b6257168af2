import Verif.Proofs.WriterRange
import Verif.Proofs.WriterRetry
import Verif.Proofs.WriterUntil
import Verif.Props.C42_Writer
/-
C77: the ranges of the chunks of the old writer. C78: what it does when the server is unavailable.
-/
namespace Verif
namespace Writer

/-! ### C77 -/

/-- **C77.** A user whose steps all have `m` tensors makes some calls and then another one, which may still be waiting. Every chunk that was
written to a stream belongs to a call `e` among them: it has the episode of the writer, and its range tells at which positions its steps are
among all steps that were appended before `e` and the step that `e` wants to append. It has exactly the steps at these positions. A chunk
with the step of a failed `Append` may have been written too, which is why that step is counted (see `C43_same_key`). -/
theorem C77 {w w1 : Writer} (hn : w.New) {m : Nat} {evs : List Event} {c : Call} {as : List Answer}
    (hsteps : ∀ e ∈ evs ++ [(c, as)], ∀ step ∈ e.1.offered, step.length = m ∧ ∀ t ∈ step, t.WF) (hrun : w.run evs = some w1)
    {s : List Msg} (hs : s ∈ (w1.call c as).1.streams) {msg : Msg} (hmsg : msg ∈ s) {ch : ChunkData} (hch : ch ∈ msg.chunks) :
    ∃ pre e post, evs ++ [(c, as)] = pre ++ e :: post ∧ ch.InPlace w.episode m (w.history pre ++ e.1.offered) := by
  let P (all : List Event) (ch : ChunkData) : Prop := ∃ pre e post, all = pre ++ e :: post ∧ ch.InPlace w.episode m (w.history pre ++ e.1.offered)
  have hmono : ∀ all e ch, P all ch → P (all ++ [e]) ch := by
    rintro all e ch ⟨pre, e', post, h1, h2⟩
    exact ⟨pre, e', post ++ [e], by rw [h1, List.append_assoc]; rfl, h2⟩
  have hplace : ∀ {pre : List Event} {w1 : Writer}, (∀ e ∈ pre, Regular m e.1) → w.run pre = some w1 → w1.closed = false →
      Placed w.episode m (w.history pre) w1 := fun hreg hr hc =>
    placed_of_run hn (pre := []) (w1 := w) hreg rfl (fun _ => Placed.new hn m) hr hc
  have hone : ∀ (pre : List Event) (w1 : Writer) (e : Event), (∀ e' ∈ pre ++ [e], Regular m e'.1) → w.run pre = some w1 → Sent (P pre) w1 →
      Sent (P (pre ++ [e])) (w1.call e.1 e.2).1 := by
    intro pre w1 e hreg hr h
    refine call_sent (ep := w.episode) (m := m) (H := w.history pre) (fun hc => hplace (fun e' he => hreg e' (List.mem_append_left _ he)) hr hc)
      (hreg e (by simp)) e.2 (h.mono (hmono pre e)) fun ch hch => ⟨pre, e, [], rfl, hch⟩
  have hmany : ∀ (evs pre : List Event) (w1 w2 : Writer), (∀ e' ∈ pre ++ evs, Regular m e'.1) → w.run pre = some w1 → Sent (P pre) w1 →
      w1.run evs = some w2 → Sent (P (pre ++ evs)) w2 := by
    intro evs
    induction evs with
    | nil =>
      intro pre w1 w2 _ _ h hr
      simp only [run, Option.some.injEq] at hr
      subst hr
      rw [List.append_nil]
      exact h
    | cons e evs ih =>
      intro pre w1 w2 hreg hr h hrun
      obtain ⟨c, as⟩ := e
      obtain ⟨⟨r, he⟩, g1, g2⟩ := run_cons hrun
      have hr' : w.run (pre ++ [(c, as)]) = some (w1.call c as).1 := by rw [run_append hr, g2]; rfl
      have e1 : pre ++ (c, as) :: evs = (pre ++ [(c, as)]) ++ evs := by simp
      rw [e1] at hreg ⊢
      exact ih _ _ _ hreg hr' (hone pre w1 (c, as) (fun e' he' => hreg e' (List.mem_append_left _ he')) hr h) g1
  have h0 : Sent (P []) w := by
    intro s hs
    rw [hn.new] at hs
    simp only [streams, Writer.new, List.nil_append, List.mem_singleton] at hs
    subst hs
    intro m hm
    cases hm
  have h1 := hmany evs [] w w1 (fun e he => hsteps e (List.mem_append_left _ he)) rfl h0 hrun
  exact hone evs w1 (c, as) hsteps hrun h1 s hs msg hmsg ch hch

namespace Demo

/-- The run of C42 meets the hypotheses. -/
theorem regular : ∀ e ∈ events, ∀ step ∈ e.1.offered, step.length = 1 ∧ ∀ t ∈ step, t.WF := by
  intro e he
  simp only [events, List.mem_cons, List.not_mem_nil, or_false] at he
  rcases he with rfl | rfl | rfl | rfl | rfl | rfl | rfl | rfl <;> simp [Call.offered, wf]

/-- Its chunks have the steps 0 to 1 and 2 to 3, both on two streams, and step 4. -/
theorem ranges : (writer.run events).any (fun w => w.streams.map (fun s => s.map fun msg => msg.chunks.map fun c =>
    c.range.map fun r => (r.start, r.end_)) == [[[some (0, 1), some (2, 3)]], [[some (0, 1), some (2, 3)], [some (4, 4)]]]) = true := by decide

end Demo

/-! ### C78 -/

/-- **C78, the error.** In whatever state the writer is and whatever the server does, no call returns Unavailable. -/
theorem C78_error (w : Writer) (c : Call) (as : List Answer) : (w.call c as).2.1 ≠ .ret (some .unavailable) := call_err w c as

/-- **C78, without retries.** All that `Close(retry_on_unavailable = false)` writes, it writes to one stream, the one that is open or the one that
it opens; when this stream has ended it does not open another one. -/
theorem C78_once (w : Writer) (as : List Answer) : ∃ more, (w.close false as).1.streams = w.past ++ [w.msgs ++ more] ∨
    (w.close false as).1.streams = w.past ++ [w.msgs ++ more, []] := by
  unfold streams
  rcases close_one w as with ⟨h1, more, h2⟩ | ⟨more, h1, h2⟩
  · exact ⟨more, .inl (by rw [h1, h2])⟩
  · exact ⟨more, .inr (by rw [h1, h2]; simp)⟩

/-- **C78, with retries.** Items are pending, there is no limit on the items in flight, and a step comes that completes a chunk or that does not.
`Append` returns OK however many streams the server ends with Unavailable, if it is there at last and accepts all that is written. -/
theorem C78_again_append {w w1 : Writer} (hn : w.New) (hlim : w.maxInFlight = none) {evs : List Event} (hrun : w.run evs = some w1)
    (hopen : w1.closed = false) (hpend : w1.pending ≠ []) {data : Timestep} (hcols : ∀ b ∈ w1.buffer.head?, b.length = data.length)
    (hmax : w1.maxTimesteps ≠ 0) (hchunk : ∃ ch, (w1.push data).makeChunk = .ok ch) (k : Nat) :
    (w1.append data ((List.replicate k [.write false, .finish (some .unavailable)]).flatten ++
      List.replicate (w1.chunks.length + 1 + w1.pending.length) (.write true))).2.1 = .ret none := by
  obtain ⟨ch, hchunk⟩ := hchunk
  obtain ⟨h1, h2⟩ := half_of_run (H := []) hrun (fun _ => RingInv.new hn) hlim (by rw [hn.new]; rfl)
  have hb : w1.buffer.head?.any (fun b => b.length != data.length) = false := by
    cases hh : w1.buffer.head? with
    | none => rfl
    | some b => simp [hcols b (by rw [hh]; rfl)]
  exact append_retried hopen hb hmax h2 h1 hpend hchunk k

/-- An item waits for its chunk. -/
def lateItem : List Event := [(.append [Demo.x 1], []), (.createItem "t" 1 (.val 7), [])]

/-- The hypotheses of `C78_again_append` are met: the next step completes the chunk, three streams fail and the fourth one does not. -/
theorem again : (Demo.writer.run lateItem).any (fun w1 => w1.pending.length == 1 && w1.buffer.length + 1 == w1.chunkLength &&
    (match (w1.push [Demo.x 2]).makeChunk with | .ok _ => true | _ => false) &&
    (w1.append [Demo.x 2] ((List.replicate 3 [.write false, .finish (some .unavailable)]).flatten ++ [.write true])).2.1 == .ret none &&
    (w1.append [Demo.x 2] ((List.replicate 3 [.write false, .finish (some .unavailable)]).flatten ++ [.write true])).1.past.length == 3) = true := by
  decide

/-- **C78, going on.** There is no limit on the items in flight, and all streams that end, end with Unavailable. A call other than
`Close(retry_on_unavailable = false)` that returns either did not turn to the server at all, or it returns OK and everything that was pending has
been sent, in order, followed by the item that the call has made, if any. -/
theorem C78_until_partial {w w1 : Writer} (hn : w.New) (hlim : w.maxInFlight = none) {evs : List Event} (hrun : w.run evs = some w1) {c : Call}
    (hc : c ≠ .close false) {as : List Answer} (hans : ∀ st, .finish st ∈ as → st = some .unavailable)
    {r : Option Code} (h : (w1.call c as).2.1 = .ret r) :
    ((w1.call c as).2.2 = as ∧ (w1.call c as).1.streams = w1.streams) ∨
      (r = none ∧ (w1.call c as).1.pending = [] ∧ ∃ new, (w1.call c as).1.sent = w1.sent ++ w1.pending ++ new) := by
  obtain ⟨hm, h0⟩ := inFlight_of_run (H := []) hrun (fun _ => RingInv.new hn) hlim (by rw [hn.new]; rfl)
  have hnone : .finish none ∉ as := fun hx => by cases hans _ hx
  have hfin : ∀ {v : Writer} {r : Option Code}, v.maxInFlight = none → (v.finish true as).2.1 = .ret r →
      v.finish true as = (v, .ret r, as) ∨ (r = none ∧ (v.finish true as).1.pending = [] ∧ (v.finish true as).1.sent = v.sent ++ v.pending) := by
    intro v r hv hr
    cases r with
    | some e =>
      rcases finish_code v as e hr with ⟨_, g⟩ | ⟨_, g⟩ | ⟨g1, g2⟩
      · exact .inl g
      · exact absurd hv g
      · exact absurd (Option.some.inj (hans _ g1)) g2
    | none =>
      obtain ⟨⟨pre, k1, k2⟩, k3, _⟩ := finish_kept v true as
      have k3 := (k3 hr).resolve_right hnone
      rw [k3, List.append_nil] at k1
      exact .inr ⟨rfl, k3, by rw [k2, k1]⟩
  have hclose : ∀ (v : Writer) (bs : List Answer) (r : Option Code), v.maxInFlight = none → v.inFlight = 0 → (v.closeStream bs).2.1 = .ret r →
      r = none ∧ (v.closeStream bs).1.pending = v.pending ∧ (v.closeStream bs).1.sent = v.sent := by
    intro v bs r hv hv0 hr
    revert hr
    unfold closeStream
    split
    · intro hr
      cases hr
      exact ⟨rfl, rfl, rfl⟩
    · rw [confirmItems_none bs (w := { v with half := true }) hv0]
      dsimp only
      have hst : stopWorker { v with half := true } bs = ({ v with half := true }, .ret none, bs) := by
        unfold stopWorker
        rw [if_pos hv]
      rw [hst]
      rcases bs with _ | ⟨_ | ⟨k, dead⟩ | st, as3⟩
      · intro hr; cases hr
      · intro hr; cases hr
      · intro hr; cases hr
      · intro hr; cases hr; exact ⟨rfl, rfl, rfl⟩
  cases c with
  | append data =>
    have h : (w1.append data as).2.1 = .ret r := h
    show ((w1.append data as).2.2 = as ∧ (w1.append data as).1.streams = w1.streams) ∨
      (r = none ∧ (w1.append data as).1.pending = [] ∧ ∃ new, (w1.append data as).1.sent = w1.sent ++ w1.pending ++ new)
    revert h
    unfold append
    split
    · exact fun _ => .inl ⟨rfl, rfl⟩
    split
    · exact fun _ => .inl ⟨rfl, rfl⟩
    split
    · exact fun _ => .inl ⟨rfl, rfl⟩
    split
    · exact fun _ => .inl ⟨rfl, rfl⟩
    have hf := fun r => hfin (v := w1.push data) (r := r) hm
    obtain ⟨⟨w2, r2, as2⟩, he⟩ : ∃ x, (w1.push data).finish true as = x := ⟨_, rfl⟩
    rw [he] at hf ⊢
    rcases r2 with (_ | e) | _ | _
    · intro h
      cases h
      rcases hf none rfl with g | ⟨_, g1, g2⟩
      · cases g
        exact .inl ⟨rfl, rfl⟩
      · exact .inr ⟨rfl, g1, [], by rw [List.append_nil]; exact g2⟩
    · intro h
      cases h
      rcases hf (some e) rfl with g | ⟨g, _⟩
      · cases g
        exact .inl ⟨rfl, rfl⟩
      · cases g
    · intro h; cases h
    · intro h; cases h
  | createItem table n p =>
    have h : (w1.createItem table n p as).2.1 = .ret r := h
    show ((w1.createItem table n p as).2.2 = as ∧ (w1.createItem table n p as).1.streams = w1.streams) ∨
      (r = none ∧ (w1.createItem table n p as).1.pending = [] ∧ ∃ new, (w1.createItem table n p as).1.sent = w1.sent ++ w1.pending ++ new)
    revert h
    unfold createItem
    split
    · exact fun _ => .inl ⟨rfl, rfl⟩
    split
    · exact fun _ => .inl ⟨rfl, rfl⟩
    split
    · exact fun _ => .inl ⟨rfl, rfl⟩
    cases w1.checkSignature table n.toNat with
    | err e => exact fun _ => .inl ⟨rfl, rfl⟩
    | died => intro h; cases h
    | ok u =>
      dsimp only
      cases w1.trajectory n with
      | none => intro h; cases h
      | some traj =>
        dsimp only
        split
        · have hcode : ∀ e, ((w1.pushItem table p traj).writeWithRetries true as).2.1 = .ret (some e) → False := by
            intro e hx
            rcases writeRounds_code _ _ _ e hx with ⟨_, g⟩ | ⟨g1, g2⟩
            · exact g hm
            · exact g2 (Option.some.inj (hans _ g1))
          have hk : (w1.pushItem table p traj).Kept ((w1.pushItem table p traj).writeWithRetries true as).1 ∧
              (((w1.pushItem table p traj).writeWithRetries true as).2.1 = .ret none →
                ((w1.pushItem table p traj).writeWithRetries true as).1.pending = [] ∨ .finish none ∈ as) := by
            have := writeRounds_kept true (as.length + 1) (w1.pushItem table p traj) as
            exact ⟨this.1, this.2.2.1⟩
          obtain ⟨⟨w2, r2, as2⟩, he⟩ : ∃ x, (w1.pushItem table p traj).writeWithRetries true as = x := ⟨_, rfl⟩
          rw [he] at hcode hk ⊢
          rcases r2 with (_ | e) | _ | _
          · intro h
            cases h
            obtain ⟨⟨pre, k1, k2⟩, k3⟩ := hk
            have k3 : w2.pending = [] := (k3 rfl).resolve_right hnone
            have k1 : (w1.pushItem table p traj).pending = pre ++ w2.pending := k1
            rw [k3, List.append_nil] at k1
            refine .inr ⟨rfl, k3, [⟨w1.gen w1.drawn, table, p, traj, []⟩], ?_⟩
            rw [← k1] at k2
            rw [List.append_assoc]
            exact k2
          · intro _
            exact (hcode e rfl).elim
          · intro h; cases h
          · intro h; cases h
        · exact fun _ => .inl ⟨rfl, rfl⟩
  | flush =>
    have h : (w1.flush as).2.1 = .ret r := h
    show ((w1.flush as).2.2 = as ∧ (w1.flush as).1.streams = w1.streams) ∨
      (r = none ∧ (w1.flush as).1.pending = [] ∧ ∃ new, (w1.flush as).1.sent = w1.sent ++ w1.pending ++ new)
    revert h
    unfold flush
    split
    · exact fun _ => .inl ⟨rfl, rfl⟩
    split
    · intro h
      rcases hfin hm h with g | ⟨g0, g1, g2⟩
      · rw [g]
        exact .inl ⟨rfl, rfl⟩
      · exact .inr ⟨g0, g1, [], by rw [List.append_nil]; exact g2⟩
    · rw [confirmItems_none as h0]
      exact fun _ => .inl ⟨rfl, rfl⟩
  | close retry =>
    cases retry with
    | false => exact absurd rfl hc
    | true =>
      have h : (w1.close true as).2.1 = .ret r := h
      show ((w1.close true as).2.2 = as ∧ (w1.close true as).1.streams = w1.streams) ∨
        (r = none ∧ (w1.close true as).1.pending = [] ∧ ∃ new, (w1.close true as).1.sent = w1.sent ++ w1.pending ++ new)
      revert h
      unfold close
      split
      · exact fun _ => .inl ⟨rfl, rfl⟩
      split
      · rename_i hp
        intro h
        obtain ⟨g1, g2, g3⟩ := hclose w1 as r hm h0 h
        exact .inr ⟨g1, g2.trans hp, [], by rw [g3, hp]; simp⟩
      · have hf := fun r => hfin (v := w1) (r := r) hm
        have hm2 := finish_limit w1 true as
        have h02 := (finish_inFlight w1 true as hm).trans h0
        obtain ⟨⟨w2, r2, as2⟩, he⟩ : ∃ x, w1.finish true as = x := ⟨_, rfl⟩
        rw [he] at hf hm2 h02 ⊢
        rcases r2 with (_ | e) | _ | _
        · intro h
          obtain ⟨g1, g2, g3⟩ := hclose w2 as2 r ((hm2 _ rfl).trans hm) h02 h
          rcases hf none rfl with g | ⟨_, g4, g5⟩
          · exfalso
            have hk := (finish_kept w1 true as).2.1
            rw [he] at hk
            have := (hk rfl).resolve_right hnone
            cases g
            contradiction
          · exact .inr ⟨g1, g2.trans g4, [], by rw [List.append_nil]; exact g3.trans g5⟩
        · dsimp only
          rw [if_neg (by simp)]
          intro h
          rcases hf (some e) rfl with g | ⟨g, _⟩
          · cases g
            exact .inl ⟨rfl, rfl⟩
          · cases g
        · intro h; cases h
        · intro h; cases h

/-- The hypotheses of `C78_until_partial` are met: two streams end with Unavailable, and `Append` returns OK when it has sent the item. If the server does
not come back it goes on waiting. -/
theorem until_run : (Demo.writer.run lateItem).any (fun w1 =>
    (w1.append [Demo.x 2] [.write false, .finish (some .unavailable), .write false, .finish (some .unavailable), .write true]).2.1 == .ret none &&
    (w1.append [Demo.x 2] [.write false, .finish (some .unavailable), .write false, .finish (some .unavailable), .write true]).1.sent == w1.pending &&
    (w1.append [Demo.x 2] [.write false, .finish (some .unavailable), .write false, .finish (some .unavailable)]).2.1 == .blocked) = true := by
  decide

/-- **C78, Flush with retries.** As `C78_again_append` for `Flush`: the items that wait for their chunk are sent once the server is there. -/
theorem C78_again_flush {w w1 : Writer} (hn : w.New) (hlim : w.maxInFlight = none) {evs : List Event} (hrun : w.run evs = some w1)
    (hopen : w1.closed = false) (hpend : w1.pending ≠ []) (hchunk : ∃ ch, w1.makeChunk = .ok ch) (k : Nat) :
    (w1.flush ((List.replicate k [.write false, .finish (some .unavailable)]).flatten ++
      List.replicate (w1.chunks.length + 1 + w1.pending.length) (.write true))).2.1 = .ret none := by
  obtain ⟨ch, hchunk⟩ := hchunk
  obtain ⟨h1, h2⟩ := half_of_run (H := []) hrun (fun _ => RingInv.new hn) hlim (by rw [hn.new]; rfl)
  unfold flush
  rw [if_neg (by simp [hopen]), if_pos hpend]
  exact finish_again h2 h1 hpend hchunk k

/-- Its hypotheses are met. -/
theorem again_flush : (Demo.writer.run lateItem).any (fun w1 => w1.pending.length == 1 && w1.closed == false &&
    (match w1.makeChunk with | .ok _ => true | _ => false) &&
    (w1.flush ((List.replicate 3 [.write false, .finish (some .unavailable)]).flatten ++ [.write true])).2.1 == .ret none) = true := by
  decide

/-- **C78, CreateItem with retries.** As `C78_again_append` for a `CreateItem` that is not refused. -/
theorem C78_again_create {w w1 : Writer} (hn : w.New) (hlim : w.maxInFlight = none) {evs : List Event} (hrun : w.run evs = some w1)
    (hopen : w1.closed = false) {table : String} {n : Nat} {p : Pri} (hlen : n ≤ w1.chunks.length * w1.chunkLength + w1.buffer.length)
    (hmax : n ≤ w1.maxTimesteps) (hsig : w1.checkSignature table n = .ok ()) (htraj : w1.trajectory n ≠ none) (k : Nat) :
    (w1.createItem table n p ((List.replicate k [.write false, .finish (some .unavailable)]).flatten ++
      List.replicate (w1.chunks.length + (w1.pending.length + 1)) (.write true))).2.1 = .ret none := by
  obtain ⟨h1, h2⟩ := half_of_run (H := []) hrun (fun _ => RingInv.new hn) hlim (by rw [hn.new]; rfl)
  obtain ⟨traj, ht⟩ := Option.ne_none_iff_exists'.mp htraj
  exact createItem_again hopen h2 h1 ⟨by omega, by omega, by omega⟩ hsig ht k

/-- Its hypotheses are met, by a writer whose steps are in a chunk. -/
theorem again_create : (Demo.writer.run [(.append [Demo.x 1], []), (.append [Demo.x 2], [])]).any (fun w1 => w1.buffer == [] && w1.closed == false &&
    w1.checkSignature "t" 2 == .ok () && (w1.trajectory 2).isSome &&
    (w1.createItem "t" 2 (.val 1) ((List.replicate 3 [.write false, .finish (some .unavailable)]).flatten ++ [.write true])).2.1 == .ret none) = true := by
  decide

/-- A writer with at most two items in flight has written an item that is not confirmed. -/
def unconfirmed : List Event := [(.append [Demo.x 1], []), (.createItem "t" 1 (.val 1), [.write true])]

/-- **C78 fails with a limit on the items in flight.** The server has not confirmed an item when it becomes unavailable. The next `CreateItem` does not try
again: it returns DataLoss, and the old stream is kept although no more can be written to it. -/
theorem C78_limit_false : ∃ w1, (Writer.new 1 4 false (some 2) none id fun _ => false).run unconfirmed = some w1 ∧
    (w1.createItem "t" 1 (.val 2) [.write false, .confirms 0 true]).2.1 = .ret (some .dataLoss) ∧
    (w1.createItem "t" 1 (.val 2) [.write false, .confirms 0 true]).1.half = true := by
  obtain ⟨w1, h, hp⟩ := (Option.any_eq_true _ _).mp (by decide : ((Writer.new 1 4 false (some 2) none id fun _ => false).run unconfirmed).any (fun w1 =>
    (w1.createItem "t" 1 (.val 2) [.write false, .confirms 0 true]).2.1 == .ret (some .dataLoss) &&
    (w1.createItem "t" 1 (.val 2) [.write false, .confirms 0 true]).1.half == true) = true)
  simp only [Bool.and_eq_true, beq_iff_eq] at hp
  exact ⟨w1, h, hp⟩

/-- **C78, what is lost.** If retries are turned off and the server is unavailable then `Close` returns OK though the item was not sent, and
nobody can send it any more. With retries it is sent again. -/
theorem C78_lost : ∃ w1, Demo.writer.run lateItem = some w1 ∧
    (w1.close false [.write false, .finish (some .unavailable)]).2.1 = .ret none ∧
    (w1.close false [.write false, .finish (some .unavailable)]).1.sent = [] ∧
    (w1.close false [.write false, .finish (some .unavailable)]).1.closed = true ∧
    (w1.close true [.write false, .finish (some .unavailable), .write true, .finish none]).2.1 = .ret none ∧
    (w1.close true [.write false, .finish (some .unavailable), .write true, .finish none]).1.sent.length = 1 := by
  refine ⟨_, rfl, ?_⟩
  decide

end Writer
end Verif
