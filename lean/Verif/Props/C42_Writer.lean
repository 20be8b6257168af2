import Verif.Proofs.WriterSig
/-
C42: the items of the old writer.
-/
namespace Verif
namespace Writer

/-- **C42, soundness.** Whatever a new writer is told to do and however its streams fail, a server that reads what was written to a stream
accepts all of it, and every item that it gives to a table was asked for by one call of `CreateItem`, for the same table and with the same
priority, and shows, when it is looked up in the chunks that come with it, exactly the last `n` steps that had been appended before that
call. This needs that `n` is positive and not greater than the number of steps that the writer still has, that all steps have the same
number of tensors, and that no failed stream ends with OK; `C42_offset`, `C42_zero`, `C42_columns` and `C42_finish` show what happens
otherwise. -/
theorem C42_partial {w w1 : Writer} (hn : w.New) {m : Nat} {evs : List Event} {c : Call} {as : List Answer} (hrun : w.run evs = some w1)
    (hs : w.AllSound m (evs ++ [(c, as)])) {s : List Msg} (h : s ∈ (w1.call c as).1.streams) (srv : Server) :
    ∃ cache ins, serveAll srv .empty s = .ok (cache, ins) ∧
      ∀ p ∈ ins, ∃ steps, w.AskedFor (evs ++ [(c, as)]) p.1 steps ∧ ShowsSteps p.1.traj p.2 m steps := by
  obtain ⟨s1, s2⟩ := (allSound_append hrun _).mp hs
  have hi := inv_of_run hn s1 hrun
  have st := event_step hrun hi s2.1
  rcases List.mem_append.mp h with h | h
  · exact st.sinv.past s h srv
  · simp only [List.mem_singleton] at h
    rw [h]
    exact st.sinv.cur srv

/-- **C42, delivery.** If `CreateItem` has returned OK then, after any calls and a `Flush` that returns OK, the item was written to a stream:
a `Write` with it has returned true, and the server that reads the stream gives it to the table with the last `n` steps. -/
theorem C42_flush_partial {w w1 w2 : Writer} (hn : w.New) {m : Nat} {pre post : List Event} {table : String} {n : Nat} {priority : Pri}
    {as as' : List Answer} (hpre : w.run pre = some w1) (hok : (w1.createItem table n priority as).2.1 = .ret none)
    (hrun : w.run (pre ++ (.createItem table n priority, as) :: post) = some w2) (hflush : (w2.flush as').2.1 = .ret none)
    (hs : w.AllSound m (pre ++ (.createItem table n priority, as) :: post ++ [(.flush, as')])) (srv : Server) :
    ∃ s ∈ (w2.flush as').1.streams, ∃ cache ins, serveAll srv .empty s = .ok (cache, ins) ∧
      ∃ p ∈ ins, p.1 ∈ (w2.flush as').1.sent ∧ p.1.key = w1.gen w1.drawn ∧ p.1.table = table ∧ p.1.priority = priority ∧
        n ≤ (w.history pre).length ∧ ShowsSteps p.1.traj p.2 m (lastSteps n (w.history pre)) := by
  obtain ⟨s1, s2⟩ := (allSound_append hrun _).mp hs
  obtain ⟨s3, s4⟩ := (allSound_append hpre _).mp s1
  have i1 := inv_of_run hn s3 hpre
  have i2 := inv_of_run hn s1 hrun
  have hrun1 := hrun
  rw [run_append hpre] at hrun1
  obtain ⟨⟨r, hr⟩, g1, g2⟩ := run_cons hrun1
  have hsound : w1.Sound m (.createItem table n priority, as) := s4.1
  obtain ⟨_, hnew⟩ := createItem_step (A' := fun _ _ => True) (fun _ _ _ => trivial) i1 hsound (fun _ _ _ => trivial)
  obtain ⟨hdr, it, k1, k2, k3, k4⟩ := hnew hok
  have st := event_step hpre i1 hsound
  have hrun' : w.run (pre ++ [(.createItem table n priority, as)]) = some (w1.call (.createItem table n priority) as).1 := by
    rw [run_append hpre]; exact g2 []
  obtain ⟨_, k5, _, _⟩ := run_inv hrun' (st.inv r hr) s4.2 g1
  have hit2 := k5 it k4
  have hfs : Answer.finish none ∉ as' := s2.1
  have st2 := event_step hrun i2 (c := .flush) (as := as') hfs
  have hp := flush_pending i2 hfs hflush
  have hon : (w2.flush as').1.OnStream it := by
    rcases hit2 with h | h
    · rcases st2.kept it h with h | h
      · have h : it ∈ (w2.flush as').1.pending := h
        rw [hp] at h
        cases h
      · exact h
    · exact st2.grow it h
  obtain ⟨hsent, s, hs', hits⟩ := hon
  obtain ⟨cache, ins, e1, e2⟩ := C42_partial hn hrun hs (c := .flush) (as := as') hs' srv
  rw [← serveAll_items e1] at hits
  obtain ⟨p, hp1, hp2⟩ := List.mem_map.mp hits
  obtain ⟨steps, ha, hsh⟩ := e2 p hp1
  have hall : ∀ {pre' : List Event} {e' : Event} {post' : List Event} {w' : Writer}, w.run pre' = some w' →
      w.AllSound m (pre' ++ e' :: post') → w.AllSound m (pre' ++ [e']) := by
    intro pre' e' post' w' hr' h
    rw [allSound_append hr'] at h ⊢
    exact ⟨h.1, h.2.1, trivial⟩
  obtain ⟨pre', table', priority', as2, post', w', n', a1, a2, a3, a4, a5, a6, a7, a8⟩ := ha
  rw [hp2] at a3
  have hs1 : w.AllSound m (pre' ++ (.createItem table' n' priority', as2) :: post') := a1 ▸ hs
  rw [List.append_assoc, List.cons_append] at a1
  obtain ⟨rfl, he⟩ := askedFor_unique hn a1 (hall hpre s1) (hall a2 hs1) hpre a2 hdr a4 (by rw [← k1, a3])
  simp only [Prod.mk.injEq, Call.createItem.injEq, Int.natCast_inj] at he
  obtain ⟨⟨rfl, rfl, rfl⟩, rfl⟩ := he
  refine ⟨s, hs', cache, ins, e1, p, hp1, by rw [hp2]; exact hsent, by rw [hp2]; exact k1, a5, a6, a7, ?_⟩
  rw [← a8]
  exact hsh

/-- **C42, delivery without Flush.** If `CreateItem` has returned OK and later no item is pending then the item was written to a stream. -/
theorem C42_written_partial {w w1 w2 : Writer} (hn : w.New) {m : Nat} {pre post : List Event} {table : String} {n : Nat} {priority : Pri}
    {as : List Answer} (hpre : w.run pre = some w1) (hok : (w1.createItem table n priority as).2.1 = .ret none)
    (hrun : w.run (pre ++ (.createItem table n priority, as) :: post) = some w2) (hp : w2.pending = [])
    (hs : w.AllSound m (pre ++ (.createItem table n priority, as) :: post)) (srv : Server) :
    ∃ s ∈ w2.streams, ∃ cache ins, serveAll srv .empty s = .ok (cache, ins) ∧
      ∃ p ∈ ins, p.1 ∈ w2.sent ∧ p.1.key = w1.gen w1.drawn ∧ p.1.table = table ∧ p.1.priority = priority ∧
        n ≤ (w.history pre).length ∧ ShowsSteps p.1.traj p.2 m (lastSteps n (w.history pre)) := by
  obtain ⟨s3, s4⟩ := (allSound_append hpre _).mp hs
  have i1 := inv_of_run hn s3 hpre
  have i2 := inv_of_run hn hs hrun
  have hrun1 := hrun
  rw [run_append hpre] at hrun1
  obtain ⟨⟨r, hr⟩, g1, g2⟩ := run_cons hrun1
  have hsound : w1.Sound m (.createItem table n priority, as) := s4.1
  obtain ⟨_, hnew⟩ := createItem_step (A' := fun _ _ => True) (fun _ _ _ => trivial) i1 hsound (fun _ _ _ => trivial)
  obtain ⟨hdr, it, k1, k2, k3, k4⟩ := hnew hok
  have st := event_step hpre i1 hsound
  have hrun' : w.run (pre ++ [(.createItem table n priority, as)]) = some (w1.call (.createItem table n priority) as).1 := by
    rw [run_append hpre]; exact g2 []
  obtain ⟨_, k5, _, _⟩ := run_inv hrun' (st.inv r hr) s4.2 g1
  have hon : w2.OnStream it := by
    rcases k5 it k4 with h | h
    · rw [hp] at h
      cases h
    · exact h
  obtain ⟨hsent, s, hs', hits⟩ := hon
  have hgood : ∃ cache ins, serveAll srv .empty s = .ok (cache, ins) ∧
      ∀ p ∈ ins, ∃ steps, w.AskedFor (pre ++ (.createItem table n priority, as) :: post) p.1 steps ∧ ShowsSteps p.1.traj p.2 m steps := by
    rcases List.mem_append.mp hs' with h | h
    · exact i2.sinv.past s h srv
    · simp only [List.mem_singleton] at h
      rw [h]
      exact i2.sinv.cur srv
  obtain ⟨cache, ins, e1, e2⟩ := hgood
  rw [← serveAll_items e1] at hits
  obtain ⟨p, hp1, hp2⟩ := List.mem_map.mp hits
  obtain ⟨steps, ha, hsh⟩ := e2 p hp1
  have hall : ∀ {pre' : List Event} {e' : Event} {post' : List Event} {w' : Writer}, w.run pre' = some w' →
      w.AllSound m (pre' ++ e' :: post') → w.AllSound m (pre' ++ [e']) := by
    intro pre' e' post' w' hr' h
    rw [allSound_append hr'] at h ⊢
    exact ⟨h.1, h.2.1, trivial⟩
  obtain ⟨pre', table', priority', as2, post', w', n', a1, a2, a3, a4, a5, a6, a7, a8⟩ := ha
  rw [hp2] at a3
  have hs1 : w.AllSound m (pre' ++ (.createItem table' n' priority', as2) :: post') := a1 ▸ hs
  obtain ⟨rfl, he⟩ := askedFor_unique hn a1 (hall hpre hs) (hall a2 hs1) hpre a2 hdr a4 (by rw [← k1, a3])
  simp only [Prod.mk.injEq, Call.createItem.injEq, Int.natCast_inj] at he
  obtain ⟨⟨rfl, rfl, rfl⟩, rfl⟩ := he
  refine ⟨s, hs', cache, ins, e1, p, hp1, by rw [hp2]; exact hsent, by rw [hp2]; exact k1, a5, a6, a7, ?_⟩
  rw [← a8]
  exact hsh

/-- **C42 without Flush.** For a user who does not call `Flush` the size of `n` is not a matter: what is too large is refused. -/
theorem C42_plain_partial {w w1 : Writer} (hn : w.New) (hc : 0 < w.chunkLength) {m : Nat} {evs : List Event} {c : Call} {as : List Answer}
    (hp : ∀ e ∈ evs ++ [(c, as)], Plain m e) (hrun : w.run evs = some w1) {s : List Msg} (h : s ∈ (w1.call c as).1.streams) (srv : Server) :
    ∃ cache ins, serveAll srv .empty s = .ok (cache, ins) ∧
      ∀ p ∈ ins, ∃ steps, w.AskedFor (evs ++ [(c, as)]) p.1 steps ∧ ShowsSteps p.1.traj p.2 m steps := by
  obtain ⟨h1, h2⟩ := full_of_run hn hc (fun e he => hp e (List.mem_append_left _ he)) hrun
  have h3 : w1.Sound m (c, as) := Full.sound h2 (hp _ (by simp))
  exact C42_partial hn hrun ((allSound_append hrun _).mpr ⟨h1, h3, trivial⟩) h srv

/-- **C42, which n are accepted.** Without `Flush`, an open writer makes an item of the last `n > 0` steps exactly if at least `n` steps were
appended, `n` is not greater than `max_timesteps` and the steps agree with the signature of the table; otherwise the call is refused as
invalid and changes nothing. While there are steps in the buffer the call then returns OK. -/
theorem C42_available {w w1 : Writer} (hn : w.New) (hc : 0 < w.chunkLength) {m : Nat} {evs : List Event} (hp : ∀ e ∈ evs, Plain m e)
    (hrun : w.run evs = some w1) (hopen : w1.closed = false) (table : String) {n : Nat} (hpos : 0 < n)
    (priority : Pri) (as : List Answer) :
    (n ≤ (w.history evs).length ∧ n ≤ w1.maxTimesteps ∧ Signatures.Allow w1.sigs table (lastSteps n (w.history evs)) → (w1.createItem table n priority as).1.drawn = w1.drawn + 1 ∧
      (w1.buffer ≠ [] → (w1.createItem table n priority as).2.1 = .ret none)) ∧
    (¬ (n ≤ (w.history evs).length ∧ n ≤ w1.maxTimesteps ∧ Signatures.Allow w1.sigs table (lastSteps n (w.history evs))) →
      w1.createItem table n priority as = (w1, .ret (some .invalidArgument), as)) := by
  obtain ⟨h1, h2⟩ := full_of_run hn hc hp hrun
  have hf := h2 hopen
  have hcount := hf.count
  obtain ⟨ρ, hd⟩ := (inv_of_run hn h1 hrun).data hopen
  obtain ⟨dropped, hH⟩ := hd.hist
  have hring := ring_of_run hn hrun hopen
  have htr := fun (hle : (n : Int) ≤ w1.held) => trajectory_picks (w := w1) (n := n) (m := m) hpos hle hH hd.has (fun step hstep =>
      (hd.steps step (by rw [hH]; exact List.mem_append_right _ hstep)).1)
  constructor
  · intro ⟨g1, g2, g3⟩
    have hchk := (checkSignature_iff hring g1 g2 table).1.mpr g3
    have hle : n ≤ w1.chunks.length * w1.chunkLength + w1.buffer.length := by
      rcases hf.held with h | h <;> omega
    obtain ⟨_, traj, ht, _⟩ := htr (by rw [hcount]; omega)
    unfold Writer.createItem
    rw [if_neg (by simp [hopen]), if_neg (by omega), if_neg (by omega), Int.toNat_natCast, hchk]
    dsimp only
    rw [ht]
    dsimp only
    by_cases hb : w1.buffer = []
    · rw [if_pos hb]
      refine ⟨?_, fun g => absurd hb g⟩
      have hcore := writeWithRetries_core (w1.pushItem table priority traj) true as
      obtain ⟨⟨w2, r2, as2⟩, he⟩ : ∃ x, (w1.pushItem table priority traj).writeWithRetries true as = x := ⟨_, rfl⟩
      rw [he] at hcore ⊢
      have hdr : w2.drawn = w1.drawn + 1 := (core_drawn hcore :)
      rcases r2 with (_ | _) | _ | _ <;> exact hdr
    · rw [if_neg hb]
      exact ⟨rfl, fun _ => rfl⟩
  · intro hnot
    unfold Writer.createItem
    rw [if_neg (by simp [hopen])]
    by_cases g1 : ((w1.chunks.length * w1.chunkLength + w1.buffer.length : Nat) : Int) < n
    · rw [if_pos (.inr g1)]
    · rw [if_neg (by omega)]
      obtain ⟨g2, _⟩ := htr (by rw [hcount]; omega)
      by_cases g3 : n ≤ w1.maxTimesteps
      · rw [if_neg (by omega), Int.toNat_natCast]
        have hchk := checkSignature_iff hring g2 g3 table
        rcases hchk.2 with g | g
        · exact absurd ⟨g2, g3, hchk.1.mp g⟩ hnot
        · rw [g]
      · rw [if_pos (by omega)]

/-! ### A run that meets the hypotheses -/

namespace Demo

/-- A scalar. -/
def x (n : Nat) : Tensor := ⟨.int32, [], [n % 2 ^ 32]⟩

theorem wf (n : Nat) : (x n).WF := ⟨rfl, by simp [x, DType.bits, Nat.mod_lt]⟩

/-- A writer with chunks of two steps, which keeps four steps. -/
def writer : Writer := .new 2 4 false none none id fun _ => false

/-- Two steps, an item that waits for its chunk, a stream that fails and is opened again, an item from two chunks, and `Flush`. -/
def events : List Event :=
  [(.append [x 1], []), (.append [x 2], []), (.append [x 3], []), (.createItem "t" 2 (.val 7), []),
    (.append [x 4], [.write false, .finish (some .unavailable), .write true]), (.append [x 5], []), (.createItem "t" 4 (.val 8), []),
    (.flush, [.write true])]

theorem new : writer.New := ⟨rfl, fun _ _ h => h⟩

/-- All calls return, and two items were written, on two streams. -/
theorem run : (writer.run events).any (fun w => w.sent.map (·.key) == [3, 5] && w.streams.map (fun s => (itemsOf s).map (·.key)) == [[3], [3, 5]] &&
    w.pending == []) = true := by decide

/-- The hypothesis of `C42_partial` holds for it. -/
theorem sound : writer.AllSound 1 events := by
  have hap : ∀ (w : Writer) n (as : List Answer), .finish none ∉ as → w.Sound 1 (.append [x n], as) := fun w n as h =>
    ⟨rfl, by simpa using wf n, h⟩
  refine ⟨hap _ _ _ (by decide), hap _ _ _ (by decide), hap _ _ _ (by decide), ⟨by decide, .inl (by decide), by decide⟩,
    hap _ _ _ (by decide), hap _ _ _ (by decide), ⟨by decide, .inl (by decide), by decide⟩, (by decide : .finish none ∉ [Answer.write true]), trivial⟩

/-- The user of `C42_plain_partial` and `C42_available` makes the same calls but for the last one. -/
theorem plain : ∀ e ∈ events.dropLast, Plain 1 e := by
  intro e he
  simp only [events, List.dropLast, List.mem_cons, List.not_mem_nil, or_false] at he
  rcases he with rfl | rfl | rfl | rfl | rfl | rfl | rfl <;> simp [Plain, wf]

end Demo

/-! ### What happens otherwise -/

/-- **C42 fails after Flush.** `CreateItem` takes the number of chunks times `chunk_length` for the number of steps, but `Flush` makes shorter
chunks. With one step appended, an item of two steps is accepted and written; its slice begins at offset -1. -/
theorem C42_offset : ∃ w1, Demo.writer.run [(.append [Demo.x 1], []), (.createItem "t" 1 (.val 7), []), (.flush, [.write true])] = some w1 ∧
    (Demo.writer.history [(.append [Demo.x 1], []), (.createItem "t" 1 (.val 7), []), (.flush, [.write true])]).length = 1 ∧
    (w1.createItem "t" 2 (.val 7) [.write true]).2.1 = .ret none ∧
    ∃ it ∈ (w1.createItem "t" 2 (.val 7) [.write true]).1.sent, it.traj = [⟨[⟨0, -1, 2, 0⟩], false⟩] := by
  obtain ⟨w1, h, hp⟩ := (Option.any_eq_true _ _).mp (by decide :
    (Demo.writer.run [(.append [Demo.x 1], []), (.createItem "t" 1 (.val 7), []), (.flush, [.write true])]).any (fun w1 =>
      (w1.createItem "t" 2 (.val 7) [.write true]).2.1 == .ret none &&
      (w1.createItem "t" 2 (.val 7) [.write true]).1.sent.any fun it => it.traj == [⟨[⟨0, -1, 2, 0⟩], false⟩]) = true)
  simp only [Bool.and_eq_true, beq_iff_eq, List.any_eq_true] at hp
  obtain ⟨h1, it, h2, h3⟩ := hp
  exact ⟨w1, h, by decide, h1, it, h2, h3⟩

/-- **C42 with num_timesteps = 0.** The C++ writer lets this pass and the process dies when the trajectory is made; only the Python client refuses it. -/
theorem C42_zero : ∃ w1, Demo.writer.run [(.append [Demo.x 1], [])] = some w1 ∧ ∀ as, (w1.createItem "t" 0 (.val 7) as).2.1 = .died := by
  refine ⟨_, rfl, fun as => ?_⟩
  rfl

/-- The calls of `C42_columns`: from one chunk to the next the number of tensors changes. -/
def columnChange : List Event :=
  [(.append [Demo.x 1], []), (.append [Demo.x 2], []), (.append [Demo.x 3, Demo.x 4], []), (.append [Demo.x 5, Demo.x 6], [])]

/-- **C42 with steps of different size.** `Append` compares the number of tensors only with what is in the buffer. The item over the last two
steps, of two tensors each, has only one column. -/
theorem C42_columns : ∃ w1, Demo.writer.run columnChange = some w1 ∧
    lastSteps 2 (Demo.writer.history columnChange) = [[Demo.x 3, Demo.x 4], [Demo.x 5, Demo.x 6]] ∧
    (w1.createItem "t" 2 (.val 7) [.write true]).2.1 = .ret none ∧
    ∃ it ∈ (w1.createItem "t" 2 (.val 7) [.write true]).1.sent, it.traj.length = 1 := by
  obtain ⟨w1, h, hp⟩ := (Option.any_eq_true _ _).mp (by decide :
    (Demo.writer.run columnChange).any (fun w1 =>
      (w1.createItem "t" 2 (.val 7) [.write true]).2.1 == .ret none &&
      (w1.createItem "t" 2 (.val 7) [.write true]).1.sent.any fun it => it.traj.length == 1) = true)
  simp only [Bool.and_eq_true, beq_iff_eq, List.any_eq_true] at hp
  obtain ⟨h1, it, h2, h3⟩ := hp
  exact ⟨w1, h, by decide, h1, it, h2, h3⟩

/-- The calls of `C42_finish`: the server ends the stream with OK though the writer has more to say. -/
def endedOk : List Event :=
  [(.append [Demo.x 1], []), (.createItem "t" 1 (.val 7), []), (.append [Demo.x 2], [.write false, .finish none])]

/-- **C42, a stream that ends with OK.** If a `Write` fails because the server has ended the stream with status OK, then the writer takes this for
success: `CreateItem` and the `Append` return OK though the item was not written, and the next `Flush`, which is there to write it,
ends the process. -/
theorem C42_finish : ∃ w1, Demo.writer.run endedOk = some w1 ∧ w1.sent = [] ∧ w1.pending.length = 1 ∧ ∀ as, (w1.flush as).2.1 = .died := by
  obtain ⟨w1, h, hp⟩ := (Option.any_eq_true _ _).mp (by decide :
    (Demo.writer.run endedOk).any (fun w1 => w1.sent == [] && w1.pending.length == 1 && w1.buffer == [] && w1.closed == false) = true)
  simp only [Bool.and_eq_true, beq_iff_eq] at hp
  obtain ⟨⟨⟨h1, h2⟩, h3⟩, h4⟩ := hp
  refine ⟨w1, h, h1, h2, fun as => ?_⟩
  have hne : w1.pending ≠ [] := by intro g; rw [g] at h2; cases h2
  unfold flush finish makeChunk
  rw [if_neg (by simp [h4]), if_pos hne, h3]

end Writer
end Verif
