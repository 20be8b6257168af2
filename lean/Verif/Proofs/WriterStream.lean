import Verif.Spec.Writer
import Verif.Spec.TrajWriter
import Verif.Proofs.InsertCache
import Verif.Props.C30_C31_Trajectories
/-
What the old writer writes to its streams: every request can be served, whatever the answers are.
-/
namespace Verif

/-- The stream is served without an error, and the items given to tables are good. -/
def GoodStream (srv : Server) (good : WItem → List ChunkData → Prop) (s : List Msg) : Prop :=
  ∃ cache ins, serveAll srv .empty s = .ok (cache, ins) ∧ ∀ p ∈ ins, good p.1 p.2

theorem GoodStream.mono {srv : Server} {good good' : WItem → List ChunkData → Prop} (h : ∀ it chs, good it chs → good' it chs) {s : List Msg}
    (hs : GoodStream srv good s) : GoodStream srv good' s := by
  obtain ⟨cache, ins, h1, h2⟩ := hs
  exact ⟨cache, ins, h1, fun p hp => h _ _ (h2 p hp)⟩

theorem GoodStream.nil (srv : Server) (good : WItem → List ChunkData → Prop) : GoodStream srv good [] := ⟨.empty, [], rfl, by simp⟩

namespace Writer

/-- An open stream on which more can be written. -/
structure Live (srv : Server) (good : WItem → List ChunkData → Prop) (w : Writer) (cache : Cache) (ins : List (WItem × List ChunkData)) :
    Prop where
  served : serveAll srv .empty w.msgs = .ok (cache, ins)
  inserted : ∀ p ∈ ins, good p.1 p.2
  stored : ∀ k ch, cache.get? k = some ch → ch.key = k ∧ (k ∈ w.chunks.map ChunkData.key → ch ∈ w.chunks)
  streamed : ∀ k ∈ w.streamed, k ∈ cache.keys ∧ k ∈ w.chunks.map ChunkData.key

/-- The invariant about streams. -/
structure SInv (good : WItem → List ChunkData → Prop) (w : Writer) : Prop where
  past : ∀ s ∈ w.past, ∀ srv, GoodStream srv good s
  cur : ∀ srv, GoodStream srv good w.msgs
  none : w.stream = false → w.msgs = [] ∧ w.half = false
  live : w.stream = true → w.half = false → ∀ srv, ∃ cache ins, w.Live srv good cache ins

/-- The items are good once they are sent with chunks of the writer. -/
structure Ready (good : WItem → List ChunkData → Prop) (chunks : List ChunkData) (items : List WItem) : Prop where
  keys : ∀ it ∈ items, ∀ k ∈ getChunkKeys it.traj, k ∈ chunks.map ChunkData.key
  good : ∀ it ∈ items, ∀ chs : List ChunkData, chs.map ChunkData.key = getChunkKeys it.traj → (∀ c ∈ chs, c ∈ chunks) → good it chs

theorem core_chunks {w w' : Writer} (h : w'.core = w.core) : w'.chunks = w.chunks := by
  show w'.core.chunks = w.core.chunks
  rw [h]

/-- Only the numbers of the thread that reads confirmations change. -/
def Quiet (w w' : Writer) : Prop := ∃ i r a, w' = { w with
  inFlight := i
  running := r
  acks := a }

theorem Quiet.refl (w : Writer) : w.Quiet w := ⟨w.inFlight, w.running, w.acks, rfl⟩

theorem Quiet.trans {a b c : Writer} (h : a.Quiet b) (h' : b.Quiet c) : a.Quiet c := by
  obtain ⟨i, r, a, rfl⟩ := h
  obtain ⟨i', r', a', rfl⟩ := h'
  exact ⟨i', r', a', rfl⟩

theorem Quiet.live {srv : Server} {good : WItem → List ChunkData → Prop} {w w' : Writer} {cache : Cache} {ins : List (WItem × List ChunkData)}
    (q : w.Quiet w') (h : w.Live srv good cache ins) : w'.Live srv good cache ins := by
  obtain ⟨i, r, a, rfl⟩ := q
  exact ⟨h.served, h.inserted, h.stored, h.streamed⟩

theorem Quiet.sinv {good : WItem → List ChunkData → Prop} {w w' : Writer} (q : w.Quiet w') (h : SInv good w) : SInv good w' := by
  have q' := q
  obtain ⟨i, r, a, rfl⟩ := q
  exact ⟨h.past, h.cur, h.none, fun h1 h2 srv => by
    obtain ⟨cache, ins, hl⟩ := h.live h1 h2 srv
    exact ⟨cache, ins, q'.live hl⟩⟩

theorem Quiet.core {w w' : Writer} (q : w.Quiet w') : w'.core = w.core := by obtain ⟨i, r, a, rfl⟩ := q; rfl
theorem Quiet.pending {w w' : Writer} (q : w.Quiet w') : w'.pending = w.pending := by obtain ⟨i, r, a, rfl⟩ := q; rfl
theorem Quiet.chunks {w w' : Writer} (q : w.Quiet w') : w'.chunks = w.chunks := by obtain ⟨i, r, a, rfl⟩ := q; rfl
theorem Quiet.half {w w' : Writer} (q : w.Quiet w') : w'.half = w.half := by obtain ⟨i, r, a, rfl⟩ := q; rfl
theorem Quiet.stream {w w' : Writer} (q : w.Quiet w') : w'.stream = w.stream := by obtain ⟨i, r, a, rfl⟩ := q; rfl
theorem Quiet.streamed {w w' : Writer} (q : w.Quiet w') : w'.streamed = w.streamed := by obtain ⟨i, r, a, rfl⟩ := q; rfl
theorem Quiet.msgs {w w' : Writer} (q : w.Quiet w') : w'.msgs = w.msgs := by obtain ⟨i, r, a, rfl⟩ := q; rfl
theorem Quiet.past {w w' : Writer} (q : w.Quiet w') : w'.past = w.past := by obtain ⟨i, r, a, rfl⟩ := q; rfl
theorem Quiet.maxInFlight {w w' : Writer} (q : w.Quiet w') : w'.maxInFlight = w.maxInFlight := by obtain ⟨i, r, a, rfl⟩ := q; rfl

theorem confirmItems_quiet (limit : Int) : ∀ (as : List Answer) (w : Writer), w.Quiet (confirmItems limit as w).1
  | [], w => by
    unfold confirmItems
    split
    · exact .refl w
    · split <;> exact .refl w
  | a :: as, w => by
    unfold confirmItems
    split
    · exact .refl w
    · split
      · exact .refl w
      · cases a with
        | confirms n dead => exact Quiet.trans ⟨_, _, _, rfl⟩ (confirmItems_quiet limit as _)
        | write ok => exact .refl w
        | finish s => exact .refl w

/-- The answers that are left are the last ones. -/
theorem confirmItems_suffix (limit : Int) : ∀ (as : List Answer) (w : Writer), (confirmItems limit as w).2.2 <:+ as
  | [], w => by
    unfold confirmItems
    split
    · exact List.suffix_rfl
    · split <;> exact List.suffix_rfl
  | a :: as, w => by
    unfold confirmItems
    split
    · exact List.suffix_rfl
    · split
      · exact List.suffix_rfl
      · cases a with
        | confirms n dead => exact (confirmItems_suffix limit as _).trans (List.suffix_cons _ _)
        | write ok => exact List.suffix_rfl
        | finish s => exact List.suffix_rfl

theorem awaitRoom_quiet (w : Writer) (as : List Answer) : w.Quiet (w.awaitRoom as).1 := by
  unfold awaitRoom
  split
  · exact .refl w
  · exact confirmItems_quiet _ _ _

theorem awaitRoom_suffix (w : Writer) (as : List Answer) : (w.awaitRoom as).2.2 <:+ as := by
  unfold awaitRoom
  split
  · exact List.suffix_rfl
  · exact confirmItems_suffix _ _ _

theorem stopped_quiet (w : Writer) : w.Quiet w.stopped.1 := by
  unfold stopped
  split
  · exact ⟨_, _, _, rfl⟩
  · exact ⟨_, _, _, rfl⟩

theorem stopWorker_quiet (w : Writer) (as : List Answer) : w.Quiet (w.stopWorker as).1 := by
  unfold stopWorker
  split
  · exact .refl w
  · split
    · exact stopped_quiet w
    · split
      · exact Quiet.trans ⟨_, _, _, rfl⟩ (stopped_quiet _)
      · split
        · exact .refl w
        · exact stopped_quiet w

theorem stopWorker_suffix (w : Writer) (as : List Answer) : (w.stopWorker as).2.2 <:+ as := by
  unfold stopWorker
  split
  · exact List.suffix_rfl
  · split
    · exact List.suffix_rfl
    · split
      · exact List.suffix_cons _ _
      · split <;> exact List.suffix_rfl

/-! ### One request -/

/-- A request with chunks only. -/
theorem Live.chunks {srv : Server} {good : WItem → List ChunkData → Prop} {w : Writer} {cache : Cache} {ins : List (WItem × List ChunkData)}
    (h : w.Live srv good cache ins) {req : List ChunkData} (hne : req ≠ []) (hreq : ∀ c ∈ req, c ∈ w.chunks)
    {st : List Key} (hst : ∀ k ∈ st, k ∈ w.streamed ∨ k ∈ req.map ChunkData.key) :
    ({ w with
      msgs := w.msgs ++ [⟨req, Option.none⟩]
      streamed := st } : Writer).Live srv good (saveChunks srv cache req) ins := by
  have hs : serve srv cache ⟨req, Option.none⟩ = .ok (saveChunks srv cache req, Option.none) := by
    simp [serve, hne]
  refine ⟨?_, h.inserted, ?_, ?_⟩
  · have := serveAll_snoc h.served hs
    simpa using this
  · intro k ch hk
    rcases saveChunks_get srv _ _ _ _ hk with h1 | ⟨h1, h2⟩
    · exact h.stored k ch h1
    · exact ⟨h2, fun _ => hreq ch h1⟩
  · intro k hk
    rcases hst k hk with h1 | h1
    · exact ⟨(saveChunks_keys srv _ _ _).mpr (.inl (h.streamed k h1).1), (h.streamed k h1).2⟩
    · refine ⟨(saveChunks_keys srv _ _ _).mpr (.inr h1), ?_⟩
      obtain ⟨c, hc, rfl⟩ := List.mem_map.mp h1
      exact List.mem_map.mpr ⟨c, hreq c hc, rfl⟩

/-- A request with an item. -/
theorem Live.item {srv : Server} {good : WItem → List ChunkData → Prop} {w : Writer} {cache : Cache} {ins : List (WItem × List ChunkData)}
    (h : w.Live srv good cache ins) {req : List ChunkData} (hreq : ∀ c ∈ req, c ∈ w.chunks)
    {keep : List Key} (hkn : keep.Nodup) (hk1 : ∀ k ∈ keep, k ∈ w.streamed ∨ k ∈ req.map ChunkData.key)
    (hk2 : ∀ k ∈ w.streamed, k ∈ keep) (hk3 : ∀ k ∈ req.map ChunkData.key, k ∈ keep)
    {it : WItem} (hit : ∀ k ∈ getChunkKeys it.traj, k ∈ keep) (hr : Ready good w.chunks [it])
    {st : List Key} (hst : ∀ k ∈ st, k ∈ w.streamed ∨ k ∈ req.map ChunkData.key) {rest : List WItem} {i : Int} :
    ∃ cache' chs, ({ w with
      msgs := w.msgs ++ [⟨req, some (it, keep)⟩]
      streamed := st
      pending := rest
      inFlight := i } : Writer).Live srv good cache' (ins ++ [(it, chs)]) := by
  have hall : ∀ k ∈ keep, k ∈ (saveChunks srv cache req).keys := fun k hk => by
    rw [saveChunks_keys]
    rcases hk1 k hk with h1 | h1
    · exact .inl (h.streamed k h1).1
    · exact .inr h1
  have hget : ∀ k ch, (saveChunks srv cache req).get? k = some ch → ch.key = k ∧ (k ∈ w.chunks.map ChunkData.key → ch ∈ w.chunks) := by
    intro k ch hk
    rcases saveChunks_get srv _ _ _ _ hk with h1 | ⟨h1, h2⟩
    · exact h.stored k ch h1
    · exact ⟨h2, fun _ => hreq ch h1⟩
  obtain ⟨chs, hf⟩ := findChunks_ok (cache := saveChunks srv cache req) (keys := getChunkKeys it.traj) fun k hk => hall k (hit k hk)
  have hg := findChunks_get hf
  have hrel := releaseChunks_ok srv hkn hall
  have hs : serve srv cache ⟨req, some (it, keep)⟩ = .ok ((saveChunks srv cache req).keep keep, some (it, chs)) := by
    simp [serve, hf, hrel]
  have hlen : chs.length = (getChunkKeys it.traj).length := by simpa using congrArg List.length hg
  have hchs : ∀ (j : Nat) (c : ChunkData), chs[j]? = some c → ∃ k, (getChunkKeys it.traj)[j]? = some k ∧ (saveChunks srv cache req).get? k = some c := by
    intro j c hc
    have := congrArg (·[j]?) hg
    simp only [List.getElem?_map, hc, Option.map_some] at this
    obtain ⟨k, hk, hk'⟩ := Option.map_eq_some_iff.mp this.symm
    exact ⟨k, hk, hk'⟩
  refine ⟨(saveChunks srv cache req).keep keep, chs, ?_, ?_, ?_, ?_⟩
  · exact serveAll_snoc h.served hs
  · intro p hp
    rcases List.mem_append.mp hp with hp | hp
    · exact h.inserted p hp
    · simp only [List.mem_singleton] at hp
      subst hp
      refine hr.good it List.mem_cons_self chs ?_ ?_
      · apply List.ext_getElem?
        intro j
        rw [List.getElem?_map]
        cases hc : chs[j]? with
        | none =>
          have := List.getElem?_eq_none_iff.mp hc
          rw [Option.map_none]
          exact (List.getElem?_eq_none_iff.mpr (by omega)).symm
        | some c =>
          obtain ⟨k, hk, hk'⟩ := hchs j c hc
          rw [Option.map_some, hk, (hget k c hk').1]
      · intro c hc
        obtain ⟨j, hj⟩ := List.getElem?_of_mem hc
        obtain ⟨k, hk, hk'⟩ := hchs j c hj
        exact (hget k c hk').2 (hr.keys it List.mem_cons_self k (List.mem_of_getElem? hk))
  · intro k ch hk
    rw [AMap.get?_keep] at hk
    split at hk
    · exact hget k ch hk
    · cases hk
  · intro k hk
    rw [AMap.mem_keys_keep]
    rcases hst k hk with h1 | h1
    · exact ⟨⟨hk2 k h1, hall k (hk2 k h1)⟩, (h.streamed k h1).2⟩
    · refine ⟨⟨hk3 k h1, hall k (hk3 k h1)⟩, ?_⟩
      obtain ⟨c, hc, rfl⟩ := List.mem_map.mp h1
      exact List.mem_map.mpr ⟨c, hreq c hc, rfl⟩

/-! ### Writing -/

/-- The item was written, or was being written, on one of the streams. -/
def OnStream (w : Writer) (it : WItem) : Prop := it ∈ w.sent ∧ ∃ s ∈ w.streams, it ∈ itemsOf s

/-- What writing does. -/
structure Eff (w w' : Writer) : Prop where
  core : w'.core = w.core
  pend : ∃ pre, w.pending = pre ++ w'.pending ∧ ∀ it ∈ pre, w'.OnStream it
  grow : ∀ it, w.OnStream it → w'.OnStream it
  msgs : ∀ m ∈ w'.msgs, ∀ ch ∈ m.chunks, ch ∈ w.chunks ∨ ((w'.half = false → w.half = false) ∧ ∃ m' ∈ w.msgs, ch ∈ m'.chunks)

theorem Eff.refl (w : Writer) : w.Eff w := ⟨rfl, ⟨[], rfl, by simp⟩, fun _ h => h, fun m hm ch hc => .inr ⟨fun h => h, m, hm, hc⟩⟩

theorem Eff.chunks {w w' : Writer} (h : w.Eff w') : w'.chunks = w.chunks := core_chunks h.core

theorem Eff.trans {a b c : Writer} (h : a.Eff b) (h' : b.Eff c) : a.Eff c := by
  refine ⟨h'.core.trans h.core, ?_, fun it hi => h'.grow it (h.grow it hi), ?_⟩
  · obtain ⟨p1, e1, s1⟩ := h.pend
    obtain ⟨p2, e2, s2⟩ := h'.pend
    refine ⟨p1 ++ p2, by rw [e1, e2, List.append_assoc], fun it hi => ?_⟩
    rcases List.mem_append.mp hi with hi | hi
    · exact h'.grow it (s1 it hi)
    · exact s2 it hi
  · intro m hm ch hc
    rcases h'.msgs m hm ch hc with h1 | ⟨hh', m', hm', hc'⟩
    · exact .inl (h.chunks ▸ h1)
    · rcases h.msgs m' hm' ch hc' with h1 | ⟨hh, h2⟩
      · exact .inl h1
      · exact .inr ⟨fun g => hh (hh' g), h2⟩

theorem Quiet.eff {w w' : Writer} (q : w.Quiet w') : w.Eff w' := by
  obtain ⟨i, r, a, rfl⟩ := q
  exact ⟨rfl, ⟨[], rfl, by simp⟩, fun _ h => h, fun m hm ch hc => .inr ⟨fun h => h, m, hm, hc⟩⟩

theorem grow_snoc {w w' : Writer} {m : Msg} (hp : w'.past = w.past) (hm : w'.msgs = w.msgs ++ [m]) (hsent : ∃ l, w'.sent = w.sent ++ l)
    {it : WItem} (h : w.OnStream it) : w'.OnStream it := by
  obtain ⟨h1, s, h2, h3⟩ := h
  obtain ⟨l, hl⟩ := hsent
  refine ⟨by rw [hl]; exact List.mem_append_left _ h1, ?_⟩
  simp only [streams, hp, hm, List.mem_append, List.mem_singleton] at h2 ⊢
  rcases h2 with h2 | rfl
  · exact ⟨s, .inl h2, h3⟩
  · exact ⟨_, .inr rfl, by rw [itemsOf_append]; exact List.mem_append_left _ h3⟩

theorem SInv.setSent {good : WItem → List ChunkData → Prop} {w : Writer} (h : SInv good w) (x : List WItem) (n : Nat) : SInv good { w with
    sent := x
    written := n } := by
  refine ⟨h.past, h.cur, h.none, fun g1 g2 srv => ?_⟩
  obtain ⟨cache, ins, hl⟩ := h.live g1 g2 srv
  exact ⟨cache, ins, hl.served, hl.inserted, hl.stored, hl.streamed⟩

theorem write_half {w : Writer} (h : w.half = true) (m : Msg) (as : List Answer) : w.write m as = (w, .ret false, as) := if_pos h

theorem write_ok {w : Writer} (h : w.half = false) (m : Msg) (ok : Bool) (as : List Answer) :
    w.write m (.write ok :: as) = ({ w with msgs := w.msgs ++ [m] }, .ret ok, as) := if_neg (by simp [h])

theorem write_nil {w : Writer} (h : w.half = false) (m : Msg) : w.write m [] = ({ w with msgs := w.msgs ++ [m] }, .blocked, []) :=
  if_neg (by simp [h])

theorem write_confirms {w : Writer} (h : w.half = false) (m : Msg) (n : Nat) (dead : Bool) (as : List Answer) :
    w.write m (.confirms n dead :: as) = ({ w with msgs := w.msgs ++ [m] }, .blocked, .confirms n dead :: as) := if_neg (by simp [h])

theorem write_finish {w : Writer} (h : w.half = false) (m : Msg) (st : Option Code) (as : List Answer) :
    w.write m (.finish st :: as) = ({ w with msgs := w.msgs ++ [m] }, .blocked, .finish st :: as) := if_neg (by simp [h])

/-- The state of the loop over the chunks. -/
structure Loop (w : Writer) (need : List Key) (ps : List ChunkData) (req : List ChunkData) (keep : List Key) : Prop where
  reqIn : ∀ c ∈ req, c ∈ w.chunks
  sub : keep.Sublist (ps.map ChunkData.key)
  from_ : ∀ k ∈ keep, k ∈ w.streamed ∨ k ∈ req.map ChunkData.key
  old : ∀ k ∈ w.streamed, k ∈ ps.map ChunkData.key → k ∈ keep
  new : ∀ k ∈ req.map ChunkData.key, k ∈ keep
  need : ∀ k ∈ need, k ∈ ps.map ChunkData.key → k ∈ keep

theorem SInv.sent {good : WItem → List ChunkData → Prop} {w : Writer} (h : SInv good w) (hs : w.stream = true) (hh : w.half = false) {m : Msg}
    {st : List Key} {rest : List WItem} {i : Int}
    (hl : ∀ srv cache ins, w.Live srv good cache ins → ∃ cache' ins', ({ w with
      msgs := w.msgs ++ [m]
      streamed := st
      pending := rest
      inFlight := i } : Writer).Live srv good cache' ins') :
    SInv good { w with
      msgs := w.msgs ++ [m]
      streamed := st
      pending := rest
      inFlight := i } := by
  refine ⟨h.past, fun srv => ?_, fun h1 => ?_, fun _ _ srv => ?_⟩
  · obtain ⟨cache, ins, hl'⟩ := h.live hs hh srv
    obtain ⟨cache', ins', hl''⟩ := hl srv cache ins hl'
    exact ⟨cache', ins', hl''.served, hl''.inserted⟩
  · exact absurd (hs.symm.trans h1) (by simp)
  · obtain ⟨cache, ins, hl'⟩ := h.live hs hh srv
    exact hl srv cache ins hl'

theorem sendChunks_spec {good : WItem → List ChunkData → Prop} (need : List Key) : ∀ (cs : List ChunkData) (ps : List ChunkData)
    (req : List ChunkData) (keep : List Key) (w : Writer) (as : List Answer), w.stream = true → SInv good w → w.chunks = ps ++ cs →
    Loop w need ps req keep → (w.chunks.map ChunkData.key).Nodup →
    SInv good (sendChunks need cs req keep w as).1 ∧ w.Eff (sendChunks need cs req keep w as).1 ∧
      (sendChunks need cs req keep w as).1.pending = w.pending ∧ (sendChunks need cs req keep w as).1.stream = true ∧
      (sendChunks need cs req keep w as).2.2 <:+ as ∧
      (∀ req' keep', (sendChunks need cs req keep w as).2.1 = .ret (some (req', keep')) →
        Loop (sendChunks need cs req keep w as).1 need w.chunks req' keep')
  | [], ps, req, keep, w, as, hs, hi, hc, hl, hn => by
    refine ⟨hi, .refl w, rfl, hs, List.suffix_rfl, ?_⟩
    intro req' keep' he
    simp only [sendChunks, Ret.ret.injEq, Option.some.injEq, Prod.mk.injEq] at he
    obtain ⟨rfl, rfl⟩ := he
    rw [List.append_nil] at hc
    rw [hc]
    exact hl
  | c :: cs, ps, req, keep, w, as, hs, hi, hc, hl, hn => by
    have hc' : w.chunks = (ps ++ [c]) ++ cs := by rw [hc]; simp
    have hcm : c ∈ w.chunks := by rw [hc]; simp
    have hfresh : c.key ∉ ps.map ChunkData.key := by
      rw [hc, List.map_append, List.map_cons, List.nodup_append] at hn
      intro hm
      exact hn.2.2 _ hm _ List.mem_cons_self rfl
    unfold sendChunks
    split
    · rename_i hcn
      have hreq : ∀ x ∈ req ++ [c], x ∈ w.chunks := by
        intro x hx
        rcases List.mem_append.mp hx with hx | hx
        · exact hl.reqIn x hx
        · simp only [List.mem_singleton] at hx; exact hx ▸ hcm
      have hl' : Loop w need (ps ++ [c]) (req ++ [c]) (keep ++ [c.key]) := by
        refine ⟨hreq, ?_, ?_, ?_, ?_, ?_⟩
        · rw [List.map_append]; exact hl.sub.append (List.Sublist.refl _)
        · intro k hk
          rcases List.mem_append.mp hk with hk | hk
          · rcases hl.from_ k hk with h1 | h1
            · exact .inl h1
            · exact .inr (by rw [List.map_append]; exact List.mem_append_left _ h1)
          · exact .inr (by rw [List.map_append]; exact List.mem_append_right _ hk)
        · intro k hk hp
          rw [List.map_append] at hp
          rcases List.mem_append.mp hp with hp | hp
          · exact List.mem_append_left _ (hl.old k hk hp)
          · exact List.mem_append_right _ hp
        · intro k hk
          rw [List.map_append] at hk
          rcases List.mem_append.mp hk with hk | hk
          · exact List.mem_append_left _ (hl.new k hk)
          · exact List.mem_append_right _ hk
        · intro k hk hp
          rw [List.map_append] at hp
          rcases List.mem_append.mp hp with hp | hp
          · exact List.mem_append_left _ (hl.need k hk hp)
          · exact List.mem_append_right _ hp
      split
      · -- a request with chunks only
        have hw : ∀ st : List Key, (∀ k ∈ st, k ∈ w.streamed ∨ k ∈ (req ++ [c]).map ChunkData.key) → w.half = false →
            SInv good { w with
              msgs := w.msgs ++ [⟨req ++ [c], Option.none⟩]
              streamed := st } := by
          intro st hst hh
          exact hi.sent hs hh (rest := w.pending) (i := w.inFlight) fun srv cache ins hlive => ⟨_, _, hlive.chunks (by simp) hreq hst⟩
        have he : ∀ st : List Key, w.Eff { w with
            msgs := w.msgs ++ [⟨req ++ [c], Option.none⟩]
            streamed := st } := by
          intro st
          refine ⟨rfl, ⟨[], rfl, by simp⟩, fun it hit => grow_snoc (w := w) (by rfl) (by rfl) (by exact ⟨[], (List.append_nil _).symm⟩) hit, ?_⟩
          intro m hm ch hch
          rcases List.mem_append.mp hm with hm | hm
          · exact .inr ⟨fun h => h, m, hm, hch⟩
          · simp only [List.mem_singleton] at hm
            subst hm
            exact .inl (hreq ch hch)
        by_cases hh : w.half = true
        · rw [write_half hh]
          exact ⟨hi, .refl w, rfl, hs, List.suffix_rfl, by simp⟩
        · have hh : w.half = false := by simpa using hh
          cases as with
          | nil =>
            rw [write_nil hh]
            exact ⟨hw w.streamed (fun k hk => .inl hk) hh, he w.streamed, rfl, hs, List.suffix_rfl, by simp⟩
          | cons a as =>
            cases a with
            | confirms n dead =>
              rw [write_confirms hh]
              exact ⟨hw w.streamed (fun k hk => .inl hk) hh, he w.streamed, rfl, hs, List.suffix_rfl, by simp⟩
            | finish s =>
              rw [write_finish hh]
              exact ⟨hw w.streamed (fun k hk => .inl hk) hh, he w.streamed, rfl, hs, List.suffix_rfl, by simp⟩
            | write ok =>
              cases ok with
              | false =>
                rw [write_ok hh]
                exact ⟨hw w.streamed (fun k hk => .inl hk) hh, he w.streamed, rfl, hs, List.suffix_cons _ _, by simp⟩
              | true =>
                rw [write_ok hh]
                have hst : ∀ k ∈ w.streamed ++ (req ++ [c]).map ChunkData.key, k ∈ w.streamed ∨ k ∈ (req ++ [c]).map ChunkData.key :=
                  fun k hk => List.mem_append.mp hk
                have ih := sendChunks_spec (good := good) need cs (ps ++ [c]) [] (keep ++ [c.key])
                  { w with
                    msgs := w.msgs ++ [⟨req ++ [c], Option.none⟩]
                    streamed := w.streamed ++ (req ++ [c]).map ChunkData.key } as hs (hw _ hst hh) hc' (by
                  refine ⟨by simp, hl'.sub, fun k hk => .inl ?_, ?_, by simp, hl'.need⟩
                  · rcases hl'.from_ k hk with h1 | h1
                    · exact List.mem_append_left _ h1
                    · exact List.mem_append_right _ h1
                  · intro k hk hp
                    rcases List.mem_append.mp hk with hk | hk
                    · exact hl'.old k hk hp
                    · exact hl'.new k hk) hn
                obtain ⟨i1, i2, i3, i4, i5, i6⟩ := ih
                exact ⟨i1, (he _).trans i2, i3, i4, i5.trans (List.suffix_cons _ _), i6⟩
      · exact sendChunks_spec need cs (ps ++ [c]) _ _ w as hs hi hc' hl' hn
    · rename_i hcn
      split
      · rename_i hcs
        refine sendChunks_spec need cs (ps ++ [c]) _ _ w as hs hi hc' ?_ hn
        refine ⟨hl.reqIn, ?_, ?_, ?_, fun k hk => List.mem_append_left _ (hl.new k hk), ?_⟩
        · rw [List.map_append]; exact hl.sub.append (List.Sublist.refl _)
        · intro k hk
          rcases List.mem_append.mp hk with hk | hk
          · exact hl.from_ k hk
          · simp only [List.mem_singleton] at hk; exact .inl (hk ▸ hcs)
        · intro k hk hp
          rw [List.map_append] at hp
          rcases List.mem_append.mp hp with hp | hp
          · exact List.mem_append_left _ (hl.old k hk hp)
          · exact List.mem_append_right _ hp
        · intro k hk hp
          rw [List.map_append] at hp
          rcases List.mem_append.mp hp with hp | hp
          · exact List.mem_append_left _ (hl.need k hk hp)
          · exact List.mem_append_right _ hp
      · rename_i hcs
        refine sendChunks_spec need cs (ps ++ [c]) _ _ w as hs hi hc' ?_ hn
        refine ⟨hl.reqIn, ?_, hl.from_, ?_, hl.new, ?_⟩
        · rw [List.map_append]; exact hl.sub.trans (List.sublist_append_left _ _)
        · intro k hk hp
          rw [List.map_append] at hp
          rcases List.mem_append.mp hp with hp | hp
          · exact hl.old k hk hp
          · simp only [List.map_cons, List.map_nil, List.mem_singleton] at hp
            exact absurd (hp ▸ hk) hcs
        · intro k hk hp
          rw [List.map_append] at hp
          rcases List.mem_append.mp hp with hp | hp
          · exact hl.need k hk hp
          · simp only [List.map_cons, List.map_nil, List.mem_singleton] at hp
            exact absurd ⟨hp ▸ hk, hcs⟩ hcn

/-- The state of the loop over the items. -/
structure Items (w : Writer) (items : List WItem) (req : List ChunkData) (keep : List Key) : Prop where
  reqIn : ∀ c ∈ req, c ∈ w.chunks
  nodup : keep.Nodup
  from_ : ∀ k ∈ keep, k ∈ w.streamed ∨ k ∈ req.map ChunkData.key
  old : ∀ k ∈ w.streamed, k ∈ keep
  new : ∀ k ∈ req.map ChunkData.key, k ∈ keep
  need : ∀ it ∈ items, ∀ k ∈ getChunkKeys it.traj, k ∈ keep

theorem Ready.sub {good : WItem → List ChunkData → Prop} {chunks : List ChunkData} {items items' : List WItem} (h : Ready good chunks items)
    (hs : ∀ it ∈ items', it ∈ items) : Ready good chunks items' :=
  ⟨fun it hi => h.keys it (hs it hi), fun it hi => h.good it (hs it hi)⟩

theorem sendItems_spec {good : WItem → List ChunkData → Prop} (req : List ChunkData) (keep : List Key) : ∀ (items : List WItem) (w : Writer)
    (as : List Answer), w.stream = true → SInv good w → Ready good w.chunks items → w.pending = items →
    (w.half = false → Items w items req keep) →
    SInv good (sendItems req keep items w as).1 ∧ w.Eff (sendItems req keep items w as).1 ∧
      (sendItems req keep items w as).1.stream = true ∧ (sendItems req keep items w as).2.2 <:+ as ∧
      ((sendItems req keep items w as).2.1 = .ret true → (sendItems req keep items w as).1.pending = [])
  | [], w, as, hs, hi, _, hp, _ => ⟨hi, .refl w, hs, List.suffix_rfl, fun _ => hp⟩
  | it :: rest, w, as, hs, hi, hr, hp, hl => by
    unfold sendItems
    have hq := awaitRoom_quiet w as
    have hsf := awaitRoom_suffix w as
    obtain ⟨⟨w1, r1, as1⟩, he1⟩ : ∃ x, w.awaitRoom as = x := ⟨_, rfl⟩
    rw [he1] at hq hsf ⊢
    have hq : w.Quiet w1 := hq
    have hsf : as1 <:+ as := hsf
    have hi1 : SInv good w1 := hq.sinv hi
    have hs1 : w1.stream = true := hq.stream.trans hs
    have hc1 : w1.chunks = w.chunks := hq.chunks
    have hp1 : w1.pending = it :: rest := hq.pending.trans hp
    cases r1 with
    | blocked => exact ⟨hi1, hq.eff, hs1, hsf, by simp⟩
    | died => exact ⟨hi1, hq.eff, hs1, hsf, by simp⟩
    | ret b =>
      cases b with
      | false => exact ⟨hi1, hq.eff, hs1, hsf, by simp⟩
      | true =>
        dsimp only
        by_cases hh : w1.half = true
        · rw [write_half hh]
          exact ⟨hi1, hq.eff, hs1, hsf, by simp⟩
        · have hh : w1.half = false := by simpa using hh
          have hl1 : Items w1 (it :: rest) req keep := by
            have hl0 := hl (hq.half ▸ hh)
            exact ⟨hc1 ▸ hl0.reqIn, hl0.nodup, hq.streamed ▸ hl0.from_, hq.streamed ▸ hl0.old, hl0.new, hl0.need⟩
          have hw : ∀ (st : List Key) (rest' : List WItem) (i : Int), (∀ k ∈ st, k ∈ w1.streamed ∨ k ∈ req.map ChunkData.key) → SInv good { w1 with
              msgs := w1.msgs ++ [⟨req, some (it, keep)⟩]
              streamed := st
              pending := rest'
              inFlight := i } := by
            intro st rest' i hst
            refine hi1.sent hs1 hh fun srv cache ins hlive => ?_
            obtain ⟨cache', chs, h'⟩ := hlive.item hl1.reqIn hl1.nodup hl1.from_ hl1.old hl1.new (hl1.need it List.mem_cons_self)
              (hc1 ▸ hr.sub (by simp)) hst (rest := rest') (i := i)
            exact ⟨_, _, h'⟩
          have hms : ∀ m ∈ w1.msgs ++ [⟨req, some (it, keep)⟩], ∀ ch ∈ m.chunks, ch ∈ w1.chunks ∨
              ((w1.half = false → w1.half = false) ∧ ∃ m' ∈ w1.msgs, ch ∈ m'.chunks) := by
            intro m hm ch hch
            rcases List.mem_append.mp hm with hm | hm
            · exact .inr ⟨fun h => h, m, hm, hch⟩
            · simp only [List.mem_singleton] at hm
              subst hm
              exact .inl (hl1.reqIn ch hch)
          have he : w1.Eff { w1 with msgs := w1.msgs ++ [⟨req, some (it, keep)⟩] } :=
            ⟨rfl, ⟨[], rfl, by simp⟩, fun x hx => grow_snoc (w := w1) (by rfl) (by rfl) (by exact ⟨[], (List.append_nil _).symm⟩) hx, hms⟩
          cases as1 with
          | nil =>
            rw [write_nil hh]
            exact ⟨hw w1.streamed w1.pending w1.inFlight (fun k hk => .inl hk), hq.eff.trans he, hs1, hsf, by simp⟩
          | cons a as1 =>
            cases a with
            | confirms n dead =>
              rw [write_confirms hh]
              exact ⟨hw w1.streamed w1.pending w1.inFlight (fun k hk => .inl hk), hq.eff.trans he, hs1, hsf, by simp⟩
            | finish s =>
              rw [write_finish hh]
              exact ⟨hw w1.streamed w1.pending w1.inFlight (fun k hk => .inl hk), hq.eff.trans he, hs1, hsf, by simp⟩
            | write ok =>
              have hsf' : as1 <:+ as := (List.suffix_cons _ _).trans hsf
              cases ok with
              | false =>
                rw [write_ok hh]
                exact ⟨hw w1.streamed w1.pending w1.inFlight (fun k hk => .inl hk), hq.eff.trans he, hs1, hsf', by simp⟩
              | true =>
                rw [write_ok hh]
                have ih := sendItems_spec (good := good) req keep rest
                  (({ w1 with msgs := w1.msgs ++ [⟨req, some (it, keep)⟩] } : Writer).itemSent req rest) as1 hs1
                  ((hw _ _ _ fun k hk => List.mem_append.mp hk).setSent _ _) (hc1 ▸ hr.sub fun x hx => List.mem_cons_of_mem _ hx) rfl (fun _ => by
                    refine ⟨hl1.reqIn, hl1.nodup, fun k hk => ?_, fun k hk => ?_, hl1.new, fun x hx => hl1.need x (List.mem_cons_of_mem _ hx)⟩
                    · exact .inl (List.mem_append.mpr (hl1.from_ k hk))
                    · rcases List.mem_append.mp hk with hk | hk
                      · exact hl1.old k hk
                      · exact hl1.new k hk)
                obtain ⟨i1, i2, i3, i4, i5⟩ := ih
                have he2 : w1.Eff (({ w1 with msgs := w1.msgs ++ [⟨req, some (it, keep)⟩] } : Writer).itemSent req rest) := by
                  refine ⟨rfl, ⟨[it], hp1, fun x hx => ?_⟩, fun x hx => grow_snoc (w := w1) (by rfl) (by rfl) (by exact ⟨_, rfl⟩) hx, hms⟩
                  simp only [List.mem_singleton] at hx
                  subst hx
                  exact ⟨by simp [itemSent, hp1], w1.msgs ++ [⟨req, some (x, keep)⟩], by simp [streams, itemSent], by rw [itemsOf_append]; simp [itemsOf]⟩
                exact ⟨i1, (hq.eff.trans he2).trans i2, i3, i4.trans hsf', i5⟩

theorem openStream_spec {good : WItem → List ChunkData → Prop} {w w1 : Writer} (h : w.openStream = some w1) (hi : SInv good w) :
    SInv good w1 ∧ w.Eff w1 ∧ w1.stream = true ∧ w1.pending = w.pending ∧ w1.chunks = w.chunks := by
  unfold openStream at h
  split at h
  · rename_i hs
    cases h
    exact ⟨hi, .refl w, hs, rfl, rfl⟩
  · rename_i hs
    have hs : w.stream = false := by simpa using hs
    have hn := hi.none hs
    have key : ∀ r, SInv good { w with
        streamed := []
        stream := true
        running := r } ∧ w.Eff { w with
        streamed := []
        stream := true
        running := r } := by
      intro r
      refine ⟨⟨hi.past, hi.cur, fun h => (by simp at h), fun _ _ srv => ⟨.empty, [], ?_, by simp, ?_, by simp⟩⟩, rfl, ⟨[], rfl, by simp⟩, fun _ h => h,
        fun m hm ch hc => .inr ⟨fun h => h, m, hm, hc⟩⟩
      · show serveAll srv .empty w.msgs = _
        rw [hn.1]; rfl
      · intro k ch hk; simp [AMap.get?, AMap.empty] at hk
    split at h
    · cases h
      exact ⟨(key w.running).1, (key w.running).2, rfl, rfl, rfl⟩
    · split at h
      · cases h
      · cases h
        exact ⟨(key true).1, (key true).2, rfl, rfl, rfl⟩

theorem writePending_spec {good : WItem → List ChunkData → Prop} {w : Writer} (as : List Answer) (hi : SInv good w)
    (hr : Ready good w.chunks w.pending) (hn : (w.chunks.map ChunkData.key).Nodup) :
    SInv good (w.writePending as).1 ∧ w.Eff (w.writePending as).1 ∧ (w.writePending as).2.2 <:+ as ∧
      ((w.writePending as).2.1 ≠ .died → (w.writePending as).1.stream = true) ∧
      ((w.writePending as).2.1 = .ret true → (w.writePending as).1.pending = []) := by
  unfold writePending
  cases ho : w.openStream with
  | none => exact ⟨hi, .refl w, List.suffix_rfl, by simp, by simp⟩
  | some w1 =>
    obtain ⟨o1, o2, o3, o4, o5⟩ := openStream_spec ho hi
    have hs := sendChunks_spec (good := good) (w1.pending.flatMap fun it => getChunkKeys it.traj) w1.chunks [] [] [] w1 as o3 o1 rfl
      ⟨by simp, by simp, by simp, by simp, by simp, by simp⟩ (o5 ▸ hn)
    dsimp only
    obtain ⟨⟨w2, r2, as2⟩, he⟩ : ∃ x, sendChunks (w1.pending.flatMap fun it => getChunkKeys it.traj) w1.chunks [] [] w1 as = x := ⟨_, rfl⟩
    rw [he] at hs ⊢
    obtain ⟨s1, s2, s3, s4, s5, s6⟩ := hs
    have s1 : SInv good w2 := s1
    have s2 : w1.Eff w2 := s2
    have s3 : w2.pending = w1.pending := s3
    have s4 : w2.stream = true := s4
    have s5 : as2 <:+ as := s5
    cases r2 with
    | blocked => exact ⟨s1, o2.trans s2, s5, fun _ => s4, by simp⟩
    | died => exact ⟨s1, o2.trans s2, s5, fun _ => s4, by simp⟩
    | ret b =>
      cases b with
      | none => exact ⟨s1, o2.trans s2, s5, fun _ => s4, by simp⟩
      | some b =>
        obtain ⟨req, keep⟩ := b
        have hl : Loop w2 _ w1.chunks req keep := s6 req keep rfl
        have hc : w2.chunks = w.chunks := s2.chunks.trans o5
        have hp : w2.pending = w.pending := s3.trans o4
        have hr2 : Ready good w2.chunks w2.pending := by rw [hc, hp]; exact hr
        have hit := sendItems_spec (good := good) req keep w2.pending w2 as2 s4 s1 hr2 rfl (by
          intro hh
          refine ⟨hl.reqIn, hl.sub.nodup (o5 ▸ hn), hl.from_, ?_, hl.new, ?_⟩
          · intro k hk
            obtain ⟨cache, ins, hlive⟩ := s1.live s4 hh .sync
            exact hl.old k hk (s2.chunks ▸ (hlive.streamed k hk).2)
          · intro it hi' k hk
            refine hl.need k ?_ ?_
            · rw [← s3]; exact List.mem_flatMap.mpr ⟨it, hi', hk⟩
            · rw [← s2.chunks]; exact hr2.keys it hi' k hk)
        obtain ⟨i1, i2, i3, i4, i5⟩ := hit
        exact ⟨i1, (o2.trans s2).trans i2, i4.trans s5, fun _ => i3, i5⟩

theorem stopped_some {w : Writer} {e : Code} (h : w.stopped.2 = some e) :
    e = .dataLoss ∧ 0 < w.stopped.1.inFlight ∧ w.stopped.1.running = false := by
  unfold stopped at h ⊢
  split at h
  · rename_i hp
    rw [if_pos hp]
    exact ⟨by cases h; rfl, hp, rfl⟩
  · cases h

theorem stopWorker_some {w : Writer} {as : List Answer} {e : Code} (h : (w.stopWorker as).2.1 = .ret (some e)) :
    e = .dataLoss ∧ w.maxInFlight ≠ none ∧ 0 < (w.stopWorker as).1.inFlight ∧ (w.stopWorker as).1.running = false := by
  unfold stopWorker at h ⊢
  split at h
  · cases h
  · rename_i hm
    rw [if_neg hm]
    split at h
    · rename_i hr
      rw [if_pos hr]
      have := stopped_some (Ret.ret.inj h)
      exact ⟨this.1, hm, this.2⟩
    · rename_i hr
      rw [if_neg hr]
      split at h
      · have := stopped_some (Ret.ret.inj h)
        exact ⟨this.1, hm, this.2⟩
      · split at h
        · cases h
        · rename_i hp
          rw [if_neg hp]
          have := stopped_some (Ret.ret.inj h)
          exact ⟨this.1, hm, this.2⟩

/-- The writer has given up a stream without opening another one: `WritesDone` was called and items are not confirmed, so that nothing can
be written any more. -/
structure Stuck (w : Writer) : Prop where
  stream : w.stream = true
  half : w.half = true
  limited : w.maxInFlight ≠ none
  unconfirmed : 0 < w.inFlight
  running : w.running = false

theorem SInv.drop {good : WItem → List ChunkData → Prop} {w : Writer} (h : SInv good w) : SInv good w.dropStream := by
  refine ⟨?_, fun srv => .nil srv good, fun _ => ⟨rfl, rfl⟩, fun hs => by simp [dropStream] at hs⟩
  intro s hs srv
  rcases List.mem_append.mp hs with hs | hs
  · exact h.past s hs srv
  · simp only [List.mem_singleton] at hs
    exact hs ▸ h.cur srv

theorem dropStream_eff (w : Writer) : w.Eff w.dropStream := by
  refine ⟨rfl, ⟨[], rfl, by simp⟩, ?_, by simp [dropStream]⟩
  rintro it ⟨h1, s, hs, hit⟩
  exact ⟨h1, s, List.mem_append_left _ hs, hit⟩

theorem SInv.halve {good : WItem → List ChunkData → Prop} {w : Writer} (h : SInv good w) (hs : w.stream = true) :
    SInv good { w with half := true } :=
  ⟨h.past, h.cur, fun h' => absurd (hs.symm.trans h') (by simp), fun _ h' => by simp at h'⟩

theorem halve_eff (w : Writer) : w.Eff { w with half := true } :=
  ⟨rfl, ⟨[], rfl, by simp⟩, fun _ h => h, fun m hm ch hc => .inr ⟨fun h => (by simp at h), m, hm, hc⟩⟩

/-- What `WriteWithRetries` does. -/
structure Wrote (good : WItem → List ChunkData → Prop) (w : Writer) (as : List Answer) (res : Writer × Ret (Option Code) × List Answer) : Prop where
  sinv : SInv good res.1
  eff : w.Eff res.1
  rest : res.2.2 <:+ as
  ok : res.2.1 = .ret none → res.1.pending = [] ∨ .finish none ∈ as
  err : ∀ e, res.2.1 = .ret (some e) → res.1.stream = false ∨ (res.1.Stuck ∧ e = .dataLoss)

theorem writeRounds_spec {good : WItem → List ChunkData → Prop} (retry : Bool) : ∀ (rounds : Nat) (w : Writer) (as : List Answer), SInv good w →
    Ready good w.chunks w.pending → (w.chunks.map ChunkData.key).Nodup → Wrote good w as (writeRounds retry rounds w as)
  | 0, w, as, hi, _, _ => ⟨hi, .refl w, List.suffix_rfl, by simp [writeRounds], by simp [writeRounds]⟩
  | rounds + 1, w, as, hi, hr, hn => by
    unfold writeRounds
    have hw := writePending_spec as hi hr hn
    obtain ⟨⟨w1, r1, as1⟩, he1⟩ : ∃ x, w.writePending as = x := ⟨_, rfl⟩
    rw [he1] at hw ⊢
    obtain ⟨p1, p2, p3, p4, p5⟩ := hw
    have p1 : SInv good w1 := p1
    have p2 : w.Eff w1 := p2
    have p3 : as1 <:+ as := p3
    cases r1 with
    | blocked => exact ⟨p1, p2, p3, by simp, by simp⟩
    | died => exact ⟨p1, p2, p3, by simp, by simp⟩
    | ret b =>
      have q4 : w1.stream = true := p4 (by simp)
      cases b with
      | true => exact ⟨p1, p2, p3, fun _ => .inl (p5 rfl), by simp⟩
      | false =>
        dsimp only
        have hq := stopWorker_quiet { w1 with half := true } as1
        have hsf := stopWorker_suffix { w1 with half := true } as1
        have hsome := fun e => stopWorker_some (w := { w1 with half := true }) (as := as1) (e := e)
        obtain ⟨⟨w2, r2, as2⟩, he2⟩ : ∃ x, stopWorker { w1 with half := true } as1 = x := ⟨_, rfl⟩
        rw [he2] at hq hsf hsome ⊢
        have hs2 : as2 <:+ as := List.IsSuffix.trans hsf p3
        have i2 : SInv good w2 := Quiet.sinv hq (p1.halve q4)
        have e2 : w.Eff w2 := (p2.trans (halve_eff w1)).trans (Quiet.eff hq)
        cases r2 with
        | blocked => exact ⟨i2, e2, hs2, by simp, by simp⟩
        | died => exact ⟨i2, e2, hs2, by simp, by simp⟩
        | ret b =>
          cases b with
          | some e =>
            obtain ⟨g1, g2, g3, g4⟩ := hsome e rfl
            refine ⟨i2, e2, hs2, by simp, fun e' h' => .inr ⟨⟨?_, ?_, ?_, g3, g4⟩, ?_⟩⟩
            · exact (Quiet.stream hq).trans q4
            · exact Quiet.half hq
            · rw [Quiet.maxInFlight hq]; exact g2
            · cases h'; exact g1
          | none =>
            cases as2 with
            | nil => exact ⟨i2, e2, hs2, by simp, by simp⟩
            | cons a as3 =>
              have hsf' : as3 <:+ as := (List.suffix_cons _ _).trans hs2
              cases a with
              | write ok => exact ⟨i2, e2, hs2, by simp, by simp⟩
              | confirms n dead => exact ⟨i2, e2, hs2, by simp, by simp⟩
              | finish st =>
                dsimp only
                split
                · have hch : w2.dropStream.chunks = w.chunks := e2.chunks
                  obtain ⟨pre, hpre, _⟩ := e2.pend
                  have ih := writeRounds_spec (good := good) retry rounds w2.dropStream as3 i2.drop
                    (by
                      rw [hch]
                      refine hr.sub fun it hit => ?_
                      rw [hpre]
                      exact List.mem_append_right _ hit) (by rw [hch]; exact hn)
                  refine ⟨ih.sinv, (e2.trans (dropStream_eff w2)).trans ih.eff, ih.rest.trans hsf', fun h => ?_, ih.err⟩
                  rcases ih.ok h with h' | h'
                  · exact .inl h'
                  · exact .inr (hsf'.subset h')
                · refine ⟨i2.drop, e2.trans (dropStream_eff w2), hsf', fun h => .inr ?_, fun e _ => .inl rfl⟩
                  have h : st = none := Ret.ret.inj h
                  subst h
                  exact hs2.subset List.mem_cons_self

end Writer
end Verif
