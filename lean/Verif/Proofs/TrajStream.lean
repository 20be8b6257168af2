import Verif.Proofs.TrajHandle
namespace Verif
namespace TrajWriter
open Chunker (Row Used Moves Held ident)

/-- The chunk belongs to a reference. -/
def Known (w : TrajWriter) (ch : ChunkData) : Prop := ∃ r, w.chunkOf r = some ch

theorem Known.moves {w w' : TrajWriter} {b : Bool} (h : MMoves w.chunkers w'.chunkers b) {ch : ChunkData} (hk : w.Known ch) : w'.Known ch := by
  obtain ⟨r, hr⟩ := hk
  exact ⟨r, chunkOf_moves h hr⟩

/-- The items that the server gets from a stream come with their chunks. -/
def InsOK (w : TrajWriter) (ins : List (WItem × List ChunkData)) : Prop :=
  ∀ p ∈ ins, p.2.map ChunkData.key = getChunkKeys p.1.traj ∧ ∀ ch ∈ p.2, w.Known ch

theorem InsOK.moves {w w' : TrajWriter} {b : Bool} (h : MMoves w.chunkers w'.chunkers b) {ins : List (WItem × List ChunkData)}
    (hi : w.InsOK ins) : w'.InsOK ins := fun p hp => ⟨(hi p hp).1, fun ch hc => ((hi p hp).2 ch hc).moves h⟩

/-- The server takes the whole stream. -/
def Served (w : TrajWriter) (srv : Server) (s : List Msg) : Prop :=
  ∃ cache ins, serveAll srv .empty s = .ok (cache, ins) ∧ w.InsOK ins

def CacheOK (w : TrajWriter) (cache : Cache) : Prop := ∀ k ch, cache.get? k = some ch → ch.key = k ∧ w.Known ch

/-- What writer and server know of the chunks, by what the worker is doing. -/
def StreamPhase (w : TrajWriter) (cache : Cache) : Prop :=
  match w.phase with
  | .fetch | .waiting | .chunks _ _ | .check _ =>
    w.streamed.Nodup ∧ ∀ k, k ∈ w.streamed ↔ k ∈ cache.keys ∨ k ∈ w.request.map ChunkData.key
  | .finalize it | .send it =>
    w.streamed.Nodup ∧ (∀ k ∈ w.streamed, k ∈ cache.keys ∨ k ∈ w.request.map ChunkData.key) ∧
      ∀ r ∈ it.refs, w.keyOf r ∈ cache.keys ∨ w.keyOf r ∈ w.request.map ChunkData.key
  | .sent => w.streamed.Nodup ∧ w.request = [] ∧ ∀ k, k ∈ w.streamed ↔ k ∈ cache.keys
  | _ => True

structure Stream (w : TrajWriter) (srv : Server) (cache : Cache) (ins : List (WItem × List ChunkData)) : Prop where
  served : serveAll srv .empty w.msgs = .ok (cache, ins)
  insOK : w.InsOK ins
  cacheOK : w.CacheOK cache
  request : ∀ ch ∈ w.request, w.Known ch
  phase : w.StreamPhase cache
  past : ∀ s ∈ w.past, w.Served srv s

/-- The worker is at the front of the queue. -/
theorem QInv.front {w : TrajWriter} {cr P : List WItem} {cf : List Key} (h : w.QInv cr cf P) {it : WItem}
    (hp : w.phase = .finalize it ∨ w.phase = .send it ∨ w.phase = .check it) : it ∈ cr := by
  have := h.phase
  unfold PhaseOK at this
  have hh : w.queue.head? = some it := by rcases hp with hp | hp | hp <;> rw [hp] at this <;> exact this.1
  rw [h.split]
  exact List.mem_append_right _ (List.mem_of_head? hh)

theorem Stream.frame {w w' : TrajWriter} {srv : Server} {cache : Cache} {ins : List (WItem × List ChunkData)} (h : w.Stream srv cache ins)
    {b : Bool} (hm : MMoves w.chunkers w'.chunkers b) (hq : Quiet w w') {cr P : List WItem} {cf : List Key} (hi : w.QInv cr cf P) :
    w'.Stream srv cache ins where
  served := by rw [hq.msgs]; exact h.served
  insOK := h.insOK.moves hm
  cacheOK := fun k ch hk => ⟨(h.cacheOK k ch hk).1, (h.cacheOK k ch hk).2.moves hm⟩
  request := by rw [hq.request]; exact fun ch hc => (h.request ch hc).moves hm
  phase := by
    have := h.phase
    unfold StreamPhase at this ⊢
    rw [hq.phase, hq.streamed, hq.request]
    cases hp : w.phase <;> simp only [hp] at this ⊢
    case finalize it =>
      refine ⟨this.1, this.2.1, fun r hr => ?_⟩
      rw [keyOf_moves hm ((hi.items it (hi.front (.inl hp))).cells r hr)]
      exact this.2.2 r hr
    case send it =>
      refine ⟨this.1, this.2.1, fun r hr => ?_⟩
      rw [keyOf_moves hm ((hi.items it (hi.front (.inr (.inl hp)))).cells r hr)]
      exact this.2.2 r hr
    all_goals exact this
  past := by
    rw [hq.past]
    intro s hs
    obtain ⟨c, i, h1, h2⟩ := h.past s hs
    exact ⟨c, i, h1, h2.moves hm⟩

/-- A change that leaves the stream and the chunkers. -/
theorem Stream.set {w w' : TrajWriter} {srv : Server} {cache : Cache} {ins : List (WItem × List ChunkData)} (h : w.Stream srv cache ins)
    (h1 : w'.chunkers = w.chunkers) (h2 : w'.msgs = w.msgs) (h3 : w'.request = w.request) (h4 : w'.past = w.past)
    (h5 : w'.StreamPhase cache) : w'.Stream srv cache ins where
  served := by rw [h2]; exact h.served
  insOK := h.insOK.moves (b := false) (by rw [h1]; exact MMoves.refl _ _)
  cacheOK := fun k ch hk => ⟨(h.cacheOK k ch hk).1, (h.cacheOK k ch hk).2.moves (b := false) (by rw [h1]; exact MMoves.refl _ _)⟩
  request := by rw [h3]; exact fun ch hc => (h.request ch hc).moves (b := false) (by rw [h1]; exact MMoves.refl _ _)
  phase := h5
  past := by
    rw [h4]
    intro s hs
    obtain ⟨c, i, g1, g2⟩ := h.past s hs
    exact ⟨c, i, g1, g2.moves (b := false) (by rw [h1]; exact MMoves.refl _ _)⟩

theorem CacheOK.save {w : TrajWriter} {srv : Server} {cache : Cache} (h : w.CacheOK cache) {chs : List ChunkData} (hc : ∀ ch ∈ chs, w.Known ch) :
    w.CacheOK (saveChunks srv cache chs) := by
  intro k ch hk
  rcases saveChunks_get srv chs cache k ch hk with h1 | ⟨h1, h2⟩
  · exact h k ch h1
  · exact ⟨h2, hc ch h1⟩

/-- A request with chunks only. -/
theorem serve_chunks (srv : Server) (cache : Cache) {chs : List ChunkData} (h : chs ≠ []) :
    serve srv cache ⟨chs, none⟩ = .ok (saveChunks srv cache chs, none) := by
  simp [serve, h]

theorem chunkOf_congr {w w' : TrajWriter} (h : w'.chunkers = w.chunkers) (r : Ref) : w'.chunkOf r = w.chunkOf r := by
  simp [chunkOf, cell?, h]

theorem keyOf_congr {w w' : TrajWriter} (h : w'.chunkers = w.chunkers) (r : Ref) : w'.keyOf r = w.keyOf r := by
  simp [keyOf, cell?, h]

theorem Known.congr {w w' : TrajWriter} (h : w'.chunkers = w.chunkers) {ch : ChunkData} (hk : w.Known ch) : w'.Known ch :=
  hk.moves (b := false) (by rw [h]; exact MMoves.refl _ _)

theorem Served.congr {w w' : TrajWriter} (h : w'.chunkers = w.chunkers) {srv : Server} {s : List Msg} (hk : w.Served srv s) : w'.Served srv s := by
  obtain ⟨c, i, g1, g2⟩ := hk
  exact ⟨c, i, g1, g2.moves (b := false) (by rw [h]; exact MMoves.refl _ _)⟩

/-- A step of the worker. -/
theorem Stream.worker {w : TrajWriter} {rows : Nat → List Row} (hb : w.Base rows) {cr P : List WItem} {cf : List Key} (hi : w.QInv cr cf P)
    {srv : Server} {cache : Cache} {ins : List (WItem × List ChunkData)} (h : w.Stream srv cache ins) (inp : Input) :
    ∃ cache' ins', (w.workerStep inp).1.Stream srv cache' ins' := by
  have hph := h.phase
  have hqp := hi.phase
  unfold PhaseOK at hqp
  unfold StreamPhase at hph
  unfold workerStep
  cases hp : w.phase with
  | start =>
    simp only
    cases w.unrecoverable with
    | some e => exact ⟨cache, ins, h.set rfl rfl rfl rfl trivial⟩
    | none =>
      simp only
      split
      · exact ⟨cache, ins, h.set rfl rfl rfl rfl trivial⟩
      · refine ⟨.empty, [], ⟨rfl, by simp [InsOK], ?_, by simp, ?_, fun s hs => (h.past s hs).congr rfl⟩⟩
        · intro k ch hk
          simp [AMap.get?, AMap.empty] at hk
        · simp [StreamPhase, AMap.keys, AMap.empty]
  | fetch =>
    simp only [hp] at hph ⊢
    split
    · exact ⟨cache, ins, h.set rfl rfl rfl rfl trivial⟩
    · cases hq : w.queue with
      | nil => exact ⟨cache, ins, h⟩
      | cons it q => exact ⟨cache, ins, h.set rfl rfl rfl rfl hph⟩
  | chunks it rest =>
    simp only [hp] at hph
    cases rest with
    | nil => exact ⟨cache, ins, h.set rfl rfl rfl rfl hph⟩
    | cons r rest =>
      simp only [sendChunk]
      cases hc : w.chunkOf r with
      | none => exact ⟨cache, ins, h.set rfl rfl rfl rfl hph⟩
      | some ch =>
        simp only
        split
        · exact ⟨cache, ins, h.set rfl rfl rfl rfl hph⟩
        · rename_i hns
          have hkey : ch.key = w.keyOf r := hb.chunk hc
          have hkn : ∀ x ∈ w.request ++ [ch], w.Known x := by
            intro x hx
            rcases List.mem_append.mp hx with hx | hx
            · exact h.request x hx
            · simp only [List.mem_singleton] at hx
              subst hx
              exact ⟨r, hc⟩
          have hnd : (w.streamed ++ [w.keyOf r]).Nodup := by
            refine List.nodup_append.mpr ⟨hph.1, by simp, fun a ha b hb2 hab => ?_⟩
            simp only [List.mem_singleton] at hb2
            subst hb2 hab
            exact hns ha
          have hmem : ∀ k, k ∈ w.streamed ++ [w.keyOf r] ↔ k ∈ cache.keys ∨ k ∈ (w.request ++ [ch]).map ChunkData.key := by
            intro k
            simp only [List.mem_append, List.mem_singleton, hph.2 k, List.map_append, List.map_cons, List.map_nil, hkey, or_assoc]
          cases hbig : inp.big with
          | false =>
            simp only [Bool.false_eq_true, false_and, if_false]
            exact ⟨cache, ins, ⟨h.served, h.insOK.moves (b := false) (MMoves.refl _ _), fun k c hk => ⟨(h.cacheOK k c hk).1, (h.cacheOK k c hk).2.congr rfl⟩,
              fun c hc => (hkn c hc).congr rfl, ⟨hnd, hmem⟩, fun s hs => (h.past s hs).congr rfl⟩⟩
          | true =>
            have hsv : serveAll srv .empty (w.msgs ++ [⟨w.request ++ [ch], none⟩]) =
                .ok (saveChunks srv cache (w.request ++ [ch]), ins ++ []) := serveAll_snoc h.served (serve_chunks srv cache (by simp))
            rw [List.append_nil] at hsv
            have hcok := h.cacheOK.save (srv := srv) hkn
            cases hok : inp.ok with
            | true =>
              simp only [if_true, true_and, and_self, Bool.true_eq_false, if_false]
              refine ⟨_, ins, ⟨hsv, h.insOK.moves (b := false) (MMoves.refl _ _), fun k c hk => ⟨(hcok k c hk).1, (hcok k c hk).2.congr rfl⟩,
                by simp, ⟨hnd, fun k => ?_⟩, fun s hs => (h.past s hs).congr rfl⟩⟩
              rw [saveChunks_keys, hmem]
              simp
            | false =>
              simp only [if_true, and_self]
              exact ⟨_, ins, ⟨hsv, h.insOK.moves (b := false) (MMoves.refl _ _), fun k c hk => ⟨(hcok k c hk).1, (hcok k c hk).2.congr rfl⟩,
                fun c hc => by simp only [Bool.false_eq_true, and_false, if_false] at hc; exact (hkn c hc).congr rfl, trivial, fun s hs => (h.past s hs).congr rfl⟩⟩
  | check it =>
    simp only [hp] at hph
    simp only [checkItem]
    split
    · rename_i hall
      refine ⟨cache, ins, h.set rfl rfl rfl rfl ⟨hph.1.filter _, fun k hk => ?_, fun r hr => ?_⟩⟩
      · exact (hph.2 k).mp ((List.mem_filter.mp hk).1)
      · have := List.all_eq_true.mp hall r hr
        exact (hph.2 (w.keyOf r)).mp (by simpa using this)
    · split
      · exact ⟨cache, ins, h.set rfl rfl rfl rfl hph⟩
      · exact ⟨cache, ins, h.set rfl rfl rfl rfl hph⟩
  | waiting =>
    simp only [hp] at hph
    exact ⟨cache, ins, h.set rfl rfl rfl rfl hph⟩
  | finalize it =>
    simp only [hp] at hph
    obtain ⟨k1, k2⟩ := onAll_ok (f := finalizeOne inp.bytes it) (reset := false) (g := w.colGen) (rows := rows) (fun i c _ => by
        obtain ⟨op, o1, o2, o3, o4⟩ := finalizeOne_op inp.bytes it i c
        exact ⟨op, o1, o2, o3, fun h => by rw [o4] at h; cases h⟩) (is := w.chunkers.keys) hb.cols
    have h' : Stream { w with chunkers := (onAll (finalizeOne inp.bytes it) w.chunkers.keys w.chunkers).1 } srv cache ins :=
      h.frame (b := false) k2 ⟨rfl, rfl, rfl, rfl, rfl⟩ hi
    have hph' := h'.phase
    simp only [StreamPhase, hp] at hph'
    exact ⟨cache, ins, h'.set rfl rfl rfl rfl hph'⟩
  | send it =>
    simp only [hp] at hph
    obtain ⟨g1, g2, g3⟩ := hph
    have hcok := h.cacheOK.save (srv := srv) h.request
    have hit := hi.items it (hi.front (.inr (.inl hp)))
    obtain ⟨chs, hf⟩ := findChunks_ok (cache := saveChunks srv cache w.request) (keys := getChunkKeys it.traj) fun k hk => by
      obtain ⟨r, hr, rfl⟩ := hit.keys k hk
      exact (saveChunks_keys _ _ _ _).mpr (g3 r hr)
    have hrel := releaseChunks_ok srv (cache := saveChunks srv cache w.request) g1 fun k hk => (saveChunks_keys _ _ _ _).mpr (g2 k hk)
    have hsv : serve srv cache ⟨w.request, some (it, w.streamed)⟩ = .ok ((saveChunks srv cache w.request).keep w.streamed, some (it, chs)) := by
      unfold serve
      rw [if_neg (by simp)]
      simp only [hf, hrel]
    have hall := serveAll_snoc h.served hsv
    have hins : w.InsOK (ins ++ [(it, chs)]) := by
      intro p hp2
      rcases List.mem_append.mp hp2 with hp2 | hp2
      · exact h.insOK p hp2
      · simp only [List.mem_singleton] at hp2
        subst hp2
        have hget := findChunks_get hf
        have hx : ∀ ch ∈ chs, ∃ k, (saveChunks srv cache w.request).get? k = some ch := by
          intro ch hch
          have : some ch ∈ (getChunkKeys it.traj).map (saveChunks srv cache w.request).get? := by
            rw [← hget]; exact List.mem_map_of_mem hch
          obtain ⟨k, _, hk⟩ := List.mem_map.mp this
          exact ⟨k, hk⟩
        refine ⟨?_, fun ch hch => ?_⟩
        · simp only
          apply List.ext_getElem?
          intro i
          have hgi := congrArg (fun l => l[i]?) hget
          simp only [List.getElem?_map] at hgi ⊢
          cases hk : (getChunkKeys it.traj)[i]? with
          | none => rw [hk] at hgi; cases hc : chs[i]? <;> rw [hc] at hgi <;> simp at hgi; rfl
          | some k =>
            rw [hk] at hgi
            cases hc : chs[i]? with
            | none => rw [hc] at hgi; simp at hgi
            | some ch =>
              rw [hc] at hgi
              simp only [Option.map_some, Option.some.injEq] at hgi ⊢
              exact (hcok k ch hgi.symm).1
        · obtain ⟨k, hk⟩ := hx ch hch
          exact (hcok k ch hk).2
    have hcok2 : w.CacheOK ((saveChunks srv cache w.request).keep w.streamed) := by
      intro k ch hk
      rw [AMap.get?_keep] at hk
      split at hk
      · exact hcok k ch hk
      · cases hk
    refine ⟨_, _, ⟨hall, hins.moves (b := false) (MMoves.refl _ _), fun k c hk => ⟨(hcok2 k c hk).1, (hcok2 k c hk).2.congr rfl⟩, ?_, ?_,
      fun s hs => (h.past s hs).congr rfl⟩⟩
    · intro c hc
      simp only at hc
      split at hc
      · cases hc
      · exact (h.request c hc).congr rfl
    · unfold StreamPhase
      cases inp.ok with
      | true =>
        refine ⟨g1, rfl, fun k => ?_⟩
        rw [AMap.mem_keys_keep, saveChunks_keys]
        exact ⟨fun hk => ⟨hk, g2 k hk⟩, fun hk => hk.1⟩
      | false => trivial
  | sent =>
    simp only [hp] at hph
    refine ⟨cache, ins, h.set rfl rfl rfl rfl ⟨hph.1, fun k => ?_⟩⟩
    rw [hph.2.2, hph.2.1]
    simp
  | sendFailed it => exact ⟨cache, ins, h.set rfl rfl rfl rfl trivial⟩
  | finish => exact ⟨cache, ins, h.set rfl rfl rfl rfl trivial⟩
  | ended status =>
    have hpast : ∀ s ∈ w.past ++ [w.msgs], w.Served srv s := fun s hs => by
      rcases List.mem_append.mp hs with hs | hs
      · exact h.past s hs
      · simp only [List.mem_singleton] at hs
        subst hs
        exact ⟨cache, ins, h.served, h.insOK⟩
    have hget : ∀ k ch, (AMap.empty : Cache).get? k = some ch → ch.key = k ∧ w.Known ch := by
      intro k ch hk
      cases hk
    simp only [endStream]
    split
    · exact ⟨.empty, [], ⟨rfl, by simp [InsOK], hget, by simp, trivial, hpast⟩⟩
    · cases status with
      | none => exact ⟨.empty, [], ⟨rfl, by simp [InsOK], hget, by simp, trivial, hpast⟩⟩
      | some e => cases e <;> exact ⟨.empty, [], ⟨rfl, by simp [InsOK], hget, by simp, trivial, hpast⟩⟩
  | stopped => exact ⟨cache, ins, h⟩

/-- Everything that holds of a writer in use. -/
structure Inv (w : TrajWriter) (rows : Nat → List Row) (cr : List WItem) (cf : List Key) (P : List WItem) : Prop where
  base : w.Base rows
  q : w.QInv cr cf P
  stream : ∀ srv, ∃ cache ins, w.Stream srv cache ins

/-- One event. -/
theorem Inv.handle {w : TrajWriter} {rows : Nat → List Row} {cr P : List WItem} {cf : List Key} (h : w.Inv rows cr cf P) {e : Event}
    (hv : e.Valid) : ∃ rows' P', (w.handle e).1.Inv rows' (cr ++ e.adds w (w.handle e).2) (cf ++ e.confirms) P' ∧ Grows rows rows' ∧
      MMoves w.chunkers (w.handle e).1.chunkers true ∧
      ∀ data inc refs, e = .append data inc → (w.handle e).2 = .ok (.refs refs) →
        ∀ (j : Nat) (r : Ref), refs[j]? = some (some r) → ∃ t, data[j]? = some (some t) ∧ r.col = j ∧
          (rows' j)[r.id]? = some ⟨t, w.episode, w.step⟩ := by
  obtain ⟨rows', h1, h2, h3, _, _, _, h4⟩ := handle_base h.base hv
  obtain ⟨P', h5⟩ := h.q.handle h.base hv
  refine ⟨rows', P', ⟨h1, h5, fun srv => ?_⟩, h2, ?_, h4⟩
  · obtain ⟨cache, ins, hs⟩ := h.stream srv
    by_cases hw : ∃ inp, e = .worker inp
    · obtain ⟨inp, rfl⟩ := hw
      exact hs.worker h.base h.q inp
    · exact ⟨cache, ins, hs.frame h3 (handle_frame w e fun inp he => hw ⟨inp, he⟩).1 h.q⟩
  · intro i c hc
    obtain ⟨c', g1, g2⟩ := h3 i c hc
    exact ⟨c', g1, g2.weaken⟩

end TrajWriter
end Verif
