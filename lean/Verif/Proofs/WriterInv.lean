import Verif.Proofs.WriterStream
import Verif.Proofs.WriterData
import Verif.Proofs.TrajRun
/-
The invariant of the old writer.
-/
namespace Verif
namespace Writer

/-- An item, with the chunks that it is given to a table with, is one that was asked for and shows the right steps. -/
def Good (A : WItem → List Timestep → Prop) (m : Nat) (it : WItem) (chs : List ChunkData) : Prop :=
  ∃ want, A it want ∧ ShowsSteps it.traj chs m want

/-- The invariant about the data, while the writer is not closed. -/
structure DInv (A : WItem → List Timestep → Prop) (m : Nat) (H : List Timestep) (w : Writer) (ρ : Key → List Timestep) : Prop where
  steps : ∀ step ∈ H, step.length = m ∧ ∀ t ∈ step, t.WF
  hist : ∃ dropped, H = dropped ++ w.chunks.flatMap (fun c => ρ c.key) ++ w.buffer
  has : ∀ c ∈ w.chunks, c.Has m (ρ c.key)
  keys : (w.chunks.map ChunkData.key ++ [w.nextKey]).Nodup
  drawn : ∀ k ∈ w.chunks.map ChunkData.key ++ [w.nextKey], ∃ i < w.drawn, k = w.gen i
  msgs : ∀ msg ∈ w.msgs, ∀ ch ∈ msg.chunks, ∃ i < w.drawn, ch.key = w.gen i
  fresh : w.half = false → ∀ msg ∈ w.msgs, ∀ ch ∈ msg.chunks, ch.key ≠ w.nextKey
  pend : w.pending ≠ [] → w.buffer ≠ []
  items : ∀ it ∈ w.pending, ∃ want, A it want ∧ Picks (w.blocks ρ) it.traj m want

/-- The invariant. -/
structure Inv (A : WItem → List Timestep → Prop) (m : Nat) (H : List Timestep) (w : Writer) : Prop where
  inj : ∀ i j, w.gen i = w.gen j → i = j
  sinv : SInv (Good A m) w
  data : w.closed = false → ∃ ρ, DInv A m H w ρ

theorem Good.mono {A A' : WItem → List Timestep → Prop} (h : ∀ it x, A it x → A' it x) {m : Nat} {it : WItem} {chs : List ChunkData} :
    Good A m it chs → Good A' m it chs := fun ⟨want, h1, h2⟩ => ⟨want, h _ _ h1, h2⟩

theorem SInv.mono {good good' : WItem → List ChunkData → Prop} (h : ∀ it chs, good it chs → good' it chs) {w : Writer} (hi : SInv good w) :
    SInv good' w :=
  ⟨fun s hs srv => (hi.past s hs srv).mono h, fun srv => (hi.cur srv).mono h, hi.none, fun h1 h2 srv => by
    obtain ⟨cache, ins, hl⟩ := hi.live h1 h2 srv
    exact ⟨cache, ins, hl.served, fun p hp => h _ _ (hl.inserted p hp), hl.stored, hl.streamed⟩⟩

theorem DInv.mono {A A' : WItem → List Timestep → Prop} (h : ∀ it x, A it x → A' it x) {m : Nat} {H : List Timestep} {w : Writer}
    {ρ : Key → List Timestep} (hd : DInv A m H w ρ) : DInv A' m H w ρ :=
  ⟨hd.steps, hd.hist, hd.has, hd.keys, hd.drawn, hd.msgs, hd.fresh, hd.pend, fun it hi => by
    obtain ⟨want, h1, h2⟩ := hd.items it hi
    exact ⟨want, h _ _ h1, h2⟩⟩

theorem Inv.mono {A A' : WItem → List Timestep → Prop} (h : ∀ it x, A it x → A' it x) {m : Nat} {H : List Timestep} {w : Writer}
    (hi : Inv A m H w) : Inv A' m H w :=
  ⟨hi.inj, hi.sinv.mono fun _ _ => Good.mono h, fun hc => by
    obtain ⟨ρ, hd⟩ := hi.data hc
    exact ⟨ρ, hd.mono h⟩⟩

theorem Inv.new {w : Writer} (h : w.New) (A : WItem → List Timestep → Prop) (m : Nat) : Inv A m [] w := by
  have e := h.new
  generalize w.chunkLength = a, w.maxTimesteps = b, w.delta = c, w.maxInFlight = d, w.sigs = s, w.big = f at e
  obtain ⟨g, hg⟩ : ∃ g, w.gen = g := ⟨_, rfl⟩
  have hk := h.keys
  rw [hg] at e hk
  subst e
  refine ⟨hk, ⟨by simp [Writer.new], fun srv => .nil srv _, fun _ => ⟨rfl, rfl⟩, by simp [Writer.new]⟩, fun _ => ⟨fun _ => [], ?_⟩⟩
  refine ⟨by simp, ⟨[], rfl⟩, by simp [Writer.new], by simp [Writer.new], ?_, by simp [Writer.new], by simp [Writer.new], by simp [Writer.new], by simp [Writer.new]⟩
  intro k hk'
  simp only [Writer.new, List.map_nil, List.nil_append, List.mem_singleton] at hk'
  exact ⟨0, Nat.two_pos, hk'⟩

theorem Eff.field {w w' : Writer} (h : w.Eff w') : w'.gen = w.gen ∧ w'.drawn = w.drawn ∧ w'.buffer = w.buffer ∧ w'.chunks = w.chunks ∧
    w'.nextKey = w.nextKey ∧ w'.closed = w.closed ∧ w'.maxTimesteps = w.maxTimesteps ∧ w'.chunkLength = w.chunkLength ∧ w'.ring = w.ring ∧
    w'.loc = w.loc := by
  have := h.core
  refine ⟨?_, ?_, ?_, ?_, ?_, ?_, ?_, ?_, ?_, ?_⟩
  · show w'.core.gen = w.core.gen; rw [this]
  · show w'.core.drawn = w.core.drawn; rw [this]
  · show w'.core.buffer = w.core.buffer; rw [this]
  · show w'.core.chunks = w.core.chunks; rw [this]
  · show w'.core.nextKey = w.core.nextKey; rw [this]
  · show w'.core.closed = w.core.closed; rw [this]
  · show w'.core.maxTimesteps = w.core.maxTimesteps; rw [this]
  · show w'.core.chunkLength = w.core.chunkLength; rw [this]
  · show w'.core.ring = w.core.ring; rw [this]
  · show w'.core.loc = w.core.loc; rw [this]

/-- Fewer items are pending and the stream is given up. -/
theorem DInv.shrink {A : WItem → List Timestep → Prop} {m : Nat} {H : List Timestep} {w w' : Writer} {ρ : Key → List Timestep} (hd : DInv A m H w ρ)
    (hb : w'.buffer = w.buffer) (hc : w'.chunks = w.chunks) (hk : w'.nextKey = w.nextKey) (hdr : w'.drawn = w.drawn) (hg : w'.gen = w.gen)
    (hp : ∀ it ∈ w'.pending, it ∈ w.pending) (hms : ∀ msg ∈ w'.msgs, ∀ ch ∈ msg.chunks, ∃ i < w.drawn, ch.key = w.gen i) (hm : w'.half = true ∨ w'.msgs = [] ∨ (w'.msgs = w.msgs ∧ w'.half = w.half)) :
    DInv A m H w' ρ := by
  refine ⟨hd.steps, ?_, ?_, ?_, ?_, ?_, ?_, ?_, ?_⟩
  · rw [hb, hc]; exact hd.hist
  · rw [hc]; exact hd.has
  · rw [hc, hk]; exact hd.keys
  · rw [hc, hk, hdr, hg]; exact hd.drawn
  · rw [hdr, hg]; exact hms
  · intro hh msg hmsg
    rcases hm with hm | hm | ⟨hm, hm'⟩
    · rw [hh] at hm; cases hm
    · rw [hm] at hmsg; cases hmsg
    · rw [hk]; exact hd.fresh (hm' ▸ hh) msg (hm ▸ hmsg)
  · intro hne
    rw [hb]
    apply hd.pend
    obtain ⟨it, hit⟩ := List.exists_mem_of_ne_nil _ hne
    exact List.ne_nil_of_mem (hp it hit)
  · intro it hit
    obtain ⟨want, h1, h2⟩ := hd.items it (hp it hit)
    refine ⟨want, h1, ?_⟩
    simp only [blocks, hb, hc, hk] at h2 ⊢
    exact h2

/-- The chunk of the buffer is added. -/
theorem Inv.addChunk {A : WItem → List Timestep → Prop} {m : Nat} {H : List Timestep} {w : Writer} {ρ : Key → List Timestep}
    (hs : SInv (Good A m) w) (hd : DInv A m H w ρ) {ch : ChunkData} (hk : ch.key = w.nextKey) :
    SInv (Good A m) { w with chunks := w.chunks ++ [ch] } := by
  refine ⟨hs.past, hs.cur, hs.none, fun h1 h2 srv => ?_⟩
  obtain ⟨cache, ins, hl⟩ := hs.live h1 h2 srv
  refine ⟨cache, ins, hl.served, hl.inserted, ?_, ?_⟩
  · intro k c hc
    obtain ⟨g1, g2⟩ := hl.stored k c hc
    refine ⟨g1, fun hkm => ?_⟩
    have hkm : k ∈ (w.chunks ++ [ch]).map ChunkData.key := hkm
    rw [List.map_append] at hkm
    rcases List.mem_append.mp hkm with hkm | hkm
    · exact List.mem_append_left _ (g2 hkm)
    · simp only [List.map_cons, List.map_nil, List.mem_singleton] at hkm
      exfalso
      have hmem : k ∈ cache.keys := (AMap.mem_keys_iff _ _).mpr (by rw [hc]; rfl)
      rcases TrajWriter.serveAll_from hl.served k hmem with h3 | h3
      · simp [AMap.keys, AMap.empty] at h3
      · obtain ⟨c', hc', he⟩ := List.mem_map.mp h3
        obtain ⟨msg, hmsg, hc''⟩ := List.mem_flatMap.mp hc'
        exact hd.fresh h2 msg hmsg c' hc'' (by rw [he, hkm, hk])
  · intro k hk'
    refine ⟨(hl.streamed k hk').1, ?_⟩
    show k ∈ (w.chunks ++ [ch]).map ChunkData.key
    rw [List.map_append]
    exact List.mem_append_left _ (hl.streamed k hk').2

/-- The pending items can be sent once the buffer is a chunk. -/
theorem DInv.ready {A : WItem → List Timestep → Prop} {m : Nat} {H : List Timestep} {w : Writer} {ρ ρ' : Key → List Timestep} (hd : DInv A m H w ρ)
    {chunks : List ChunkData} (hb : w.blocks ρ = chunks.map fun c => (c.key, ρ' c.key)) (hh : ∀ c ∈ chunks, c.Has m (ρ' c.key)) :
    Ready (Good A m) chunks w.pending := by
  refine ⟨fun it hit k hk => ?_, fun it hit chs h1 h2 => ?_⟩
  · obtain ⟨want, _, hp⟩ := hd.items it hit
    have := hp.keys k hk
    rw [hb, List.map_map] at this
    exact this
  · obtain ⟨want, ha, hp⟩ := hd.items it hit
    rw [hb] at hp
    exact ⟨want, ha, hp.shows hh h1 h2⟩

theorem evict_spec (cl mt : Nat) : ∀ (cs : List ChunkData) (st : List Key), ∃ pre, cs = pre ++ (evict cl mt cs st).1 ∧
    (evict cl mt cs st).2 = st.filter (fun k => decide (k ∉ pre.map ChunkData.key))
  | [], st => ⟨[], rfl, (by simp only [evict]; exact (List.filter_eq_self.mpr (by simp)).symm)⟩
  | c :: cs, st => by
    unfold evict
    split
    · obtain ⟨pre, h1, h2⟩ := evict_spec cl mt cs (st.filter (· ≠ c.key))
      refine ⟨c :: pre, by rw [List.cons_append, ← h1], ?_⟩
      rw [h2, List.filter_filter]
      apply List.filter_congr
      intro k _
      by_cases hk : k = c.key <;> simp [hk]
    · exact ⟨[], rfl, (List.filter_eq_self.mpr (by simp)).symm⟩

theorem SInv.finished {good : WItem → List ChunkData → Prop} {w : Writer} (h : SInv good w) (hn : (w.chunks.map ChunkData.key).Nodup) :
    SInv good w.finished := by
  refine ⟨h.past, h.cur, h.none, fun h1 h2 srv => ?_⟩
  obtain ⟨cache, ins, hl⟩ := h.live h1 h2 srv
  obtain ⟨pre, e1, e2⟩ := evict_spec w.chunkLength w.maxTimesteps w.chunks w.streamed
  refine ⟨cache, ins, hl.served, hl.inserted, ?_, ?_⟩
  · intro k c hc
    obtain ⟨g1, g2⟩ := hl.stored k c hc
    refine ⟨g1, fun hk => ?_⟩
    have hk : k ∈ (evict w.chunkLength w.maxTimesteps w.chunks w.streamed).1.map ChunkData.key := hk
    show c ∈ (evict w.chunkLength w.maxTimesteps w.chunks w.streamed).1
    have hkw : k ∈ w.chunks.map ChunkData.key := by rw [e1, List.map_append]; exact List.mem_append_right _ hk
    have hc := g2 hkw
    rw [e1] at hc
    rcases List.mem_append.mp hc with hc | hc
    · exfalso
      rw [e1, List.map_append, List.nodup_append] at hn
      exact hn.2.2 _ (List.mem_map.mpr ⟨c, hc, g1⟩) _ hk rfl
    · exact hc
  · intro k hk
    have hk : k ∈ (evict w.chunkLength w.maxTimesteps w.chunks w.streamed).2 := hk
    rw [e2, List.mem_filter] at hk
    obtain ⟨hk1, hk2⟩ := hk
    refine ⟨(hl.streamed k hk1).1, ?_⟩
    have := (hl.streamed k hk1).2
    rw [e1, List.map_append] at this
    rcases List.mem_append.mp this with h3 | h3
    · simp [h3] at hk2
    · exact h3

/-- What `Finish` does. -/
structure Finished (A : WItem → List Timestep → Prop) (m : Nat) (H : List Timestep) (w : Writer) (as : List Answer)
    (res : Writer × Ret (Option Code) × List Answer) : Prop where
  sinv : SInv (Good A m) res.1
  rest : res.2.2 <:+ as
  pend : ∃ pre, w.pending = pre ++ res.1.pending ∧ ∀ it ∈ pre, res.1.OnStream it
  grow : ∀ it, w.OnStream it → res.1.OnStream it
  gen : res.1.gen = w.gen
  drawn : w.drawn ≤ res.1.drawn
  msgs : ∀ msg ∈ res.1.msgs, ∀ c ∈ msg.chunks, ∃ i < w.drawn, c.key = w.gen i
  ok : res.2.1 = .ret none → .finish none ∉ as → res.1.pending = [] ∧ res.1.buffer = [] ∧ res.1.closed = w.closed ∧ ∃ ρ, DInv A m H res.1 ρ
  err : ∀ e, res.2.1 = .ret (some e) → res.1.core = w.core ∧
    (res.1 = w ∨ res.1.stream = false ∨ (res.1.Stuck ∧ e = .dataLoss))

theorem finish_spec {A : WItem → List Timestep → Prop} {m : Nat} {H : List Timestep} {w : Writer} {ρ : Key → List Timestep}
    (hinj : ∀ i j, w.gen i = w.gen j → i = j) (hs : SInv (Good A m) w) (hd : DInv A m H w ρ) (retry : Bool) (as : List Answer) :
    Finished A m H w as (w.finish retry as) := by
  unfold finish
  have hbufH : ∀ step ∈ w.buffer, step ∈ H := by
    obtain ⟨dropped, hH⟩ := hd.hist
    intro step hstep
    rw [hH]
    exact List.mem_append_right _ hstep
  cases hmk : w.makeChunk with
  | died => exact ⟨hs, List.suffix_rfl, ⟨[], rfl, by simp⟩, fun _ h => h, rfl, Nat.le_refl _, hd.msgs, by simp, by simp⟩
  | err e => exact ⟨hs, List.suffix_rfl, ⟨[], rfl, by simp⟩, fun _ h => h, rfl, Nat.le_refl _, hd.msgs, by simp, fun _ _ => ⟨rfl, .inl rfl⟩⟩
  | ok ch =>
    dsimp only
    obtain ⟨hkey, hhas⟩ := makeChunk_ok (m := m) (fun step hstep => hd.steps step (hbufH step hstep)) hmk
    have hfresh : ∀ c ∈ w.chunks, c.key ≠ w.nextKey := by
      intro c hc he
      have := hd.keys
      rw [List.nodup_append] at this
      exact this.2.2 _ (List.mem_map.mpr ⟨c, hc, rfl⟩) _ List.mem_cons_self he
    let ρ' : Key → List Timestep := fun k => if k = w.nextKey then w.buffer else ρ k
    have hρ : ∀ c ∈ w.chunks, ρ' c.key = ρ c.key := fun c hc => if_neg (hfresh c hc)
    have hρn : ρ' ch.key = w.buffer := if_pos hkey
    have hblocks : w.blocks ρ = (w.chunks ++ [ch]).map fun c => (c.key, ρ' c.key) := by
      unfold blocks
      rw [if_neg hhas.ne, List.map_append]
      congr 1
      · exact List.map_congr_left fun c hc => by rw [hρ c hc]
      · rw [List.map_cons, List.map_nil, hρn, hkey]
    have hhas' : ∀ c ∈ w.chunks ++ [ch], c.Has m (ρ' c.key) := by
      intro c hc
      rcases List.mem_append.mp hc with hc | hc
      · rw [hρ c hc]; exact hd.has c hc
      · simp only [List.mem_singleton] at hc
        subst hc
        rw [hρn]
        exact hhas
    have hn : ((w.chunks ++ [ch]).map ChunkData.key).Nodup := by
      rw [List.map_append, List.map_cons, List.map_nil, hkey]
      exact hd.keys
    have hw := writeRounds_spec (good := Good A m) retry (as.length + 1) { w with chunks := w.chunks ++ [ch] } as (Inv.addChunk hs hd hkey)
      (hd.ready hblocks hhas') hn
    rw [show writeRounds retry (as.length + 1) { w with chunks := w.chunks ++ [ch] } as =
      ({ w with chunks := w.chunks ++ [ch] } : Writer).writeWithRetries retry as from rfl] at hw
    obtain ⟨⟨w1, r1, as1⟩, he⟩ : ∃ x, writeWithRetries { w with chunks := w.chunks ++ [ch] } retry as = x := ⟨_, rfl⟩
    rw [he] at hw ⊢
    have hsinv : SInv (Good A m) w1 := hw.sinv
    have heff : Eff { w with chunks := w.chunks ++ [ch] } w1 := hw.eff
    have hrest : as1 <:+ as := hw.rest
    obtain ⟨f1, f2, f3, f4, f5, f6, f7, f8, f9, f10⟩ := heff.field
    have f4 : w1.chunks = w.chunks ++ [ch] := f4
    have hpend : ∃ pre, w.pending = pre ++ w1.pending ∧ ∀ it ∈ pre, w1.OnStream it := heff.pend
    have hgrow : ∀ it, w.OnStream it → w1.OnStream it := heff.grow
    have hkeysd : ∀ k ∈ (w.chunks ++ [ch]).map ChunkData.key, ∃ i < w.drawn, k = w.gen i := by
      intro k hk
      rw [List.map_append, List.map_cons, List.map_nil, hkey] at hk
      exact hd.drawn k hk
    have hmk' : ∀ msg ∈ w1.msgs, ∀ c ∈ msg.chunks, ∃ i < w.drawn, c.key = w.gen i := by
      intro msg hmsg c hc
      rcases heff.msgs msg hmsg c hc with h1 | ⟨_, m', h1, h2⟩
      · exact hkeysd _ (List.mem_map.mpr ⟨c, h1, rfl⟩)
      · exact hd.msgs m' h1 c h2
    cases r1 with
    | blocked => exact ⟨hsinv, hrest, hpend, hgrow, f1, Nat.le_of_eq f2.symm, hmk', by simp, by simp⟩
    | died => exact ⟨hsinv, hrest, hpend, hgrow, f1, Nat.le_of_eq f2.symm, hmk', by simp, by simp⟩
    | ret r =>
      cases r with
      | none =>
        refine ⟨hsinv.finished (by rw [f4]; exact hn), hrest, hpend, hgrow, f1, (show w.drawn ≤ w1.drawn + 1 by rw [f2]; exact Nat.le_succ _), hmk', fun _ hnf => ?_, by simp⟩
        have hp0 : w1.pending = [] := (hw.ok rfl).resolve_right hnf
        obtain ⟨pre, e1, e2⟩ := evict_spec w1.chunkLength w1.maxTimesteps w1.chunks w1.streamed
        rw [f4] at e1
        have hsub : ∀ c ∈ (evict w1.chunkLength w1.maxTimesteps w1.chunks w1.streamed).1, c ∈ w.chunks ++ [ch] := by
          intro c hc
          rw [e1]
          exact List.mem_append_right _ (f4 ▸ hc)
        have hnew : ∀ k, (∃ i < w.drawn, k = w.gen i) → k ≠ w1.gen w1.drawn := by
          rintro k ⟨i, hi, rfl⟩ he
          rw [f1, f2] at he
          have : i = w.drawn := hinj _ _ he
          omega
        refine ⟨hp0, rfl, f6, ρ', hd.steps, ?_, ?_, ?_, ?_, ?_, ?_, ?_, ?_⟩
        · obtain ⟨dropped, hH⟩ := hd.hist
          refine ⟨dropped ++ pre.flatMap fun c => ρ' c.key, ?_⟩
          show H = _ ++ ((evict w1.chunkLength w1.maxTimesteps w1.chunks w1.streamed).1).flatMap _ ++ []
          have hall : (w.chunks ++ [ch]).flatMap (fun c => ρ' c.key) = w.chunks.flatMap (fun c => ρ c.key) ++ w.buffer := by
            rw [List.flatMap_append]
            congr 1
            · rw [List.flatMap_def, List.flatMap_def]
              congr 1
              exact List.map_congr_left hρ
            · simp [hρn]
          rw [List.append_nil, List.append_assoc, f4, ← List.flatMap_append, ← e1, hall, hH, List.append_assoc]
        · exact fun c hc => hhas' c (hsub c hc)
        · show ((evict w1.chunkLength w1.maxTimesteps w1.chunks w1.streamed).1.map ChunkData.key ++ [w1.gen w1.drawn]).Nodup
          rw [List.nodup_append]
          refine ⟨?_, by simp, ?_⟩
          · rw [e1, List.map_append, List.nodup_append] at hn
            rw [f4]
            exact hn.2.1
          · intro a ha b hb
            simp only [List.mem_singleton] at hb
            subst hb
            obtain ⟨c, hc, rfl⟩ := List.mem_map.mp ha
            exact hnew _ (hkeysd _ (List.mem_map.mpr ⟨c, hsub c hc, rfl⟩))
        · intro k hk
          rcases List.mem_append.mp hk with hk | hk
          · obtain ⟨c, hc, rfl⟩ := List.mem_map.mp hk
            obtain ⟨i, hi, he⟩ := hkeysd _ (List.mem_map.mpr ⟨c, hsub c hc, rfl⟩)
            exact ⟨i, by show i < w1.drawn + 1; rw [f2]; exact Nat.lt_succ_of_lt hi, by rw [he]; show w.gen i = w1.gen i; rw [f1]⟩
          · simp only [List.mem_singleton] at hk
            exact ⟨w1.drawn, Nat.lt_succ_self _, hk⟩
        · intro msg hmsg c hc
          obtain ⟨i, hi, he⟩ := hmk' msg hmsg c hc
          exact ⟨i, by show i < w1.drawn + 1; rw [f2]; exact Nat.lt_succ_of_lt hi, by rw [he]; show w.gen i = w1.gen i; rw [f1]⟩
        · exact fun _ msg hmsg c hc => hnew _ (hmk' msg hmsg c hc)
        · intro h
          exact absurd hp0 h
        · intro it hit
          have hit : it ∈ w1.pending := hit
          rw [hp0] at hit
          cases hit
      | some e =>
        have hsn : w1.stream = false ∨ (w1.Stuck ∧ e = .dataLoss) := hw.err e rfl
        have hcd : w1.chunks.dropLast = w.chunks := by rw [f4]; simp
        refine ⟨?_, hrest, hpend, hgrow, f1, Nat.le_of_eq f2.symm, hmk', by simp, fun e' he' => ⟨?_, .inr ?_⟩⟩
        · refine ⟨hsinv.past, hsinv.cur, hsinv.none, fun h1 h2 srv => ?_⟩
          have h1 : w1.stream = true := h1
          have h2 : w1.half = false := h2
          rcases hsn with hsn | ⟨hsn, _⟩
          · rw [hsn] at h1; cases h1
          · rw [hsn.half] at h2; cases h2
        · have hcore := heff.core
          show ({ w1.core with chunks := w1.chunks.dropLast } : Writer) = w.core
          rw [hcore, hcd]
          rfl
        · cases he'
          rcases hsn with hsn | ⟨hsn, h'⟩
          · exact .inl hsn
          · exact .inr ⟨⟨hsn.stream, hsn.half, hsn.limited, hsn.unconfirmed, hsn.running⟩, h'⟩

/-- What a call does. -/
structure Step (A : WItem → List Timestep → Prop) (m : Nat) (H : List Timestep) (w : Writer) (res : Writer × Ret (Option Code) × List Answer) : Prop where
  sinv : SInv (Good A m) res.1
  inv : ∀ r, res.2.1 = .ret r → Inv A m H res.1
  kept : ∀ it ∈ w.pending, it ∈ res.1.pending ∨ res.1.OnStream it
  grow : ∀ it, w.OnStream it → res.1.OnStream it
  gen : res.1.gen = w.gen
  drawn : w.drawn ≤ res.1.drawn

theorem Step.same {A : WItem → List Timestep → Prop} {m : Nat} {H : List Timestep} {w : Writer} (h : Inv A m H w) (r : Ret (Option Code)) (as : List Answer) :
    Step A m H w (w, r, as) := ⟨h.sinv, fun _ _ => h, fun _ h => .inl h, fun _ h => h, rfl, Nat.le_refl _⟩

theorem kept_of {w w' : Writer} (h : ∃ pre, w.pending = pre ++ w'.pending ∧ ∀ it ∈ pre, w'.OnStream it) :
    ∀ it ∈ w.pending, it ∈ w'.pending ∨ w'.OnStream it := by
  obtain ⟨pre, h1, h2⟩ := h
  intro it hit
  rw [h1] at hit
  rcases List.mem_append.mp hit with h | h
  · exact .inr (h2 it h)
  · exact .inl h

theorem sub_of {w w' : Writer} (h : ∃ pre, w.pending = pre ++ w'.pending ∧ ∀ it ∈ pre, w'.OnStream it) :
    ∀ it ∈ w'.pending, it ∈ w.pending := by
  obtain ⟨pre, h1, h2⟩ := h
  intro it hit
  rw [h1]
  exact List.mem_append_right _ hit

theorem DInv.push {A : WItem → List Timestep → Prop} {m : Nat} {H : List Timestep} {w : Writer} {ρ : Key → List Timestep} (hd : DInv A m H w ρ)
    {data : Timestep} (h1 : data.length = m) (h2 : ∀ t ∈ data, t.WF) : DInv A m (H ++ [data]) (w.push data) ρ := by
  refine ⟨?_, ?_, hd.has, hd.keys, hd.drawn, hd.msgs, hd.fresh, fun _ => by simp [Writer.push], ?_⟩
  · intro step hs
    rcases List.mem_append.mp hs with hs | hs
    · exact hd.steps step hs
    · simp only [List.mem_singleton] at hs
      exact hs ▸ ⟨h1, h2⟩
  · obtain ⟨dropped, hH⟩ := hd.hist
    exact ⟨dropped, by rw [hH, List.append_assoc]; rfl⟩
  · intro it hit
    obtain ⟨want, ha, hp⟩ := hd.items it hit
    refine ⟨want, ha, hp.mono fun k rows hk => ?_⟩
    have hne : (w.push data).buffer ≠ [] := by simp [Writer.push]
    simp only [blocks] at hk ⊢
    rw [if_neg hne]
    rcases List.mem_append.mp hk with hk | hk
    · exact ⟨[], by rw [List.append_nil]; exact List.mem_append_left _ hk⟩
    · split at hk
      · cases hk
      · simp only [List.mem_singleton, Prod.mk.injEq] at hk
        obtain ⟨rfl, rfl⟩ := hk
        exact ⟨[data], List.mem_append_right _ List.mem_cons_self⟩

theorem core_gen {w w' : Writer} (h : w'.core = w.core) : w'.gen = w.gen := by show w'.core.gen = w.core.gen; rw [h]
theorem core_drawn {w w' : Writer} (h : w'.core = w.core) : w'.drawn = w.drawn := by show w'.core.drawn = w.core.drawn; rw [h]
theorem core_buffer {w w' : Writer} (h : w'.core = w.core) : w'.buffer = w.buffer := by show w'.core.buffer = w.core.buffer; rw [h]
theorem core_nextKey {w w' : Writer} (h : w'.core = w.core) : w'.nextKey = w.nextKey := by show w'.core.nextKey = w.core.nextKey; rw [h]
theorem core_closed {w w' : Writer} (h : w'.core = w.core) : w'.closed = w.closed := by show w'.core.closed = w.core.closed; rw [h]

/-- The state of the stream after an error. -/
theorem gone {good : WItem → List ChunkData → Prop} {w w' : Writer} {e : Code} (hs : SInv good w')
    (h : w' = w ∨ w'.stream = false ∨ (w'.Stuck ∧ e = .dataLoss)) : w'.half = true ∨ w'.msgs = [] ∨ (w'.msgs = w.msgs ∧ w'.half = w.half) := by
  rcases h with rfl | h | ⟨h, _⟩
  · exact .inr (.inr ⟨rfl, rfl⟩)
  · exact .inr (.inl (hs.none h).1)
  · exact .inl h.half

theorem append_step {A : WItem → List Timestep → Prop} {m : Nat} {H : List Timestep} {w : Writer} (hi : Inv A m H w) {data : Timestep}
    {as : List Answer} (hs : w.Sound m (.append data, as)) : Step A m (H ++ w.appended (.append data, as)) w (w.append data as) := by
  obtain ⟨h1, h2, h3⟩ := hs
  have hsame : ∀ r, w.append data as = (w, r, as) → r ≠ .ret none → Step A m (H ++ w.appended (.append data, as)) w (w.append data as) := by
    intro r hr hne
    rw [appended, hr, if_neg hne, List.append_nil]
    exact .same hi _ _
  by_cases hc : w.closed = true
  · exact hsame (.ret (some .failedPrecondition)) (by unfold append; rw [if_pos hc]) (by simp)
  have hc' : w.closed = false := by simpa using hc
  by_cases hl : w.buffer.head?.any (fun b => b.length != data.length) = true
  · exact hsame (.ret (some .invalidArgument)) (by unfold append; rw [if_neg hc, if_pos hl]) (by simp)
  by_cases hz : w.maxTimesteps = 0
  · exact hsame .died (by unfold append; rw [if_neg hc, if_neg hl, if_pos hz]) (by simp)
  obtain ⟨ρ, hd⟩ := hi.data hc'
  have hd' := hd.push h1 h2
  have hs' : SInv (Good A m) (w.push data) := by
    refine ⟨hi.sinv.past, hi.sinv.cur, hi.sinv.none, fun g1 g2 srv => ?_⟩
    obtain ⟨cache, ins, hl⟩ := hi.sinv.live g1 g2 srv
    exact ⟨cache, ins, hl.served, hl.inserted, hl.stored, hl.streamed⟩
  by_cases hb : (w.push data).buffer.length < w.chunkLength
  · have he : w.append data as = (w.push data, .ret none, as) := by unfold append; rw [if_neg hc, if_neg hl, if_neg hz, if_pos hb]
    rw [appended, he, if_pos rfl]
    exact ⟨hs', fun _ _ => ⟨hi.inj, hs', fun _ => ⟨ρ, hd'⟩⟩, fun _ h => .inl h, fun _ h => h, rfl, Nat.le_refl _⟩
  have hf := finish_spec (w := w.push data) hi.inj hs' hd' true as
  have he : w.append data as =
      match (w.push data).finish true as with
      | (w1, .ret (some e), as1) => (w1.unpush (w.ring.getD w.loc none), .ret (some e), as1)
      | (w1, .ret none, as1) => (w1, .ret none, as1)
      | (w1, .blocked, as1) => (w1, .blocked, as1)
      | (w1, .died, as1) => (w1, .died, as1) := by
    conv => lhs; unfold append
    rw [if_neg hc, if_neg hl, if_neg hz, if_neg hb]
    obtain ⟨a, r, b⟩ := (w.push data).finish true as
    rcases r with (_ | _) | _ | _ <;> rfl
  obtain ⟨⟨w1, r1, as1⟩, hx⟩ : ∃ x, (w.push data).finish true as = x := ⟨_, rfl⟩
  rw [hx] at hf he
  have f1 : SInv (Good A m) w1 := hf.sinv
  have f3 : ∃ pre, w.pending = pre ++ w1.pending ∧ ∀ it ∈ pre, w1.OnStream it := hf.pend
  have f4 : ∀ it, w.OnStream it → w1.OnStream it := hf.grow
  have f5 : w1.gen = w.gen := hf.gen
  have f6 : w.drawn ≤ w1.drawn := hf.drawn
  cases r1 with
  | blocked =>
    rw [appended, he, if_neg (by simp), List.append_nil]
    exact ⟨f1, by simp, kept_of f3, f4, f5, f6⟩
  | died =>
    rw [appended, he, if_neg (by simp), List.append_nil]
    exact ⟨f1, by simp, kept_of f3, f4, f5, f6⟩
  | ret r =>
    cases r with
    | none =>
      rw [appended, he, if_pos rfl]
      exact ⟨f1, fun _ _ => ⟨by rw [f5]; exact hi.inj, f1, fun _ => (hf.ok rfl h3).2.2.2⟩, kept_of f3, f4, f5, f6⟩
    | some e =>
      have he : w.append data as = (w1.unpush (w.ring.getD w.loc none), .ret (some e), as1) := he
      rw [appended, he, if_neg (by simp), List.append_nil]
      obtain ⟨hcore, hst⟩ := hf.err e rfl
      have hcore : w1.core = (w.push data).core := hcore
      have hsu : SInv (Good A m) (w1.unpush (w.ring.getD w.loc none)) := by
        refine ⟨f1.past, f1.cur, f1.none, fun g1 g2 srv => ?_⟩
        obtain ⟨cache, ins, hl⟩ := f1.live g1 g2 srv
        exact ⟨cache, ins, hl.served, hl.inserted, hl.stored, hl.streamed⟩
      refine ⟨hsu, fun _ _ => ⟨by show ∀ i j, w1.gen i = w1.gen j → i = j; rw [f5]; exact hi.inj, hsu, fun _ => ⟨ρ, ?_⟩⟩, kept_of f3, f4, f5, f6⟩
      refine hd.shrink ?_ (core_chunks hcore :) (core_nextKey hcore :) (core_drawn hcore :) (core_gen hcore :) (sub_of f3) hf.msgs (gone (e := e) f1 hst :)
      show w1.buffer.dropLast = w.buffer
      rw [core_buffer hcore]
      simp [Writer.push]

theorem DInv.draw {A : WItem → List Timestep → Prop} {m : Nat} {H : List Timestep} {w : Writer} {ρ : Key → List Timestep} (hd : DInv A m H w ρ) :
    DInv A m H { w with drawn := w.drawn + 1 } ρ :=
  ⟨hd.steps, hd.hist, hd.has, hd.keys, fun k hk => by obtain ⟨i, h1, h2⟩ := hd.drawn k hk; exact ⟨i, Nat.lt_succ_of_lt h1, h2⟩,
    fun msg hm ch hc => by obtain ⟨i, h1, h2⟩ := hd.msgs msg hm ch hc; exact ⟨i, Nat.lt_succ_of_lt h1, h2⟩, hd.fresh, hd.pend, hd.items⟩

theorem createItem_step {A A' : WItem → List Timestep → Prop} (hA : ∀ it x, A it x → A' it x) {m : Nat} {H : List Timestep} {w : Writer}
    (hi : Inv A m H w) {table : String} {n : Int} {priority : Pri} {as : List Answer} (hs : w.Sound m (.createItem table n priority, as))
    (hnew : ∀ traj, (w.createItem table n priority as).1.drawn = w.drawn + 1 → n.toNat ≤ H.length →
      A' ⟨w.gen w.drawn, table, priority, traj, []⟩ (lastSteps n.toNat H)) :
    Step A' m H w (w.createItem table n priority as) ∧ ((w.createItem table n priority as).2.1 = .ret none →
      (w.createItem table n priority as).1.drawn = w.drawn + 1 ∧ ∃ it : WItem, it.key = w.gen w.drawn ∧ it.table = table ∧ it.priority = priority ∧
        (it ∈ (w.createItem table n priority as).1.pending ∨ (w.createItem table n priority as).1.OnStream it)) := by
  obtain ⟨h1, h2, h3⟩ := hs
  have hi' := hi.mono hA
  rcases h2 with h2 | ⟨e, he⟩
  case inr => rw [he]; exact ⟨.same hi' _ _, by simp⟩
  revert hnew
  unfold createItem
  by_cases hc : w.closed = true
  · rw [if_pos hc]; exact fun _ => ⟨.same hi' _ _, by simp⟩
  have hc' : w.closed = false := by simpa using hc
  rw [if_neg hc]
  split
  · exact fun _ => ⟨.same hi' _ _, by simp⟩
  split
  · exact fun _ => ⟨.same hi' _ _, by simp⟩
  cases hchk : w.checkSignature table n.toNat with
  | err e => exact fun _ => ⟨.same hi' _ _, by simp⟩
  | died => exact fun _ => ⟨.same hi' _ _, by simp⟩
  | ok u =>
    dsimp only
    obtain ⟨ρ, hd⟩ := hi'.data hc'
    obtain ⟨dropped, hH⟩ := hd.hist
    have hn : ((n.toNat : Nat) : Int) = n := Int.toNat_of_nonneg (by omega)
    obtain ⟨hle, traj, ht, hp⟩ := trajectory_picks (w := w) (n := n.toNat) (m := m) (by omega) (by rw [hn]; exact h2) hH hd.has (fun step hstep =>
      (hd.steps step (by rw [hH]; exact List.mem_append_right _ hstep)).1)
    rw [hn] at ht
    rw [ht]
    dsimp only
    have hsp : SInv (Good A' m) (w.pushItem table priority traj) := by
      refine ⟨hi'.sinv.past, hi'.sinv.cur, hi'.sinv.none, fun g1 g2 srv => ?_⟩
      obtain ⟨cache, ins, hl⟩ := hi'.sinv.live g1 g2 srv
      exact ⟨cache, ins, hl.served, hl.inserted, hl.stored, hl.streamed⟩
    by_cases hb : w.buffer = []
    · rw [if_pos hb]
      have hp0 : w.pending = [] := by
        cases hpe : w.pending with
        | nil => rfl
        | cons a l => exact absurd hb (hd.pend (by rw [hpe]; simp))
      have hpi : (w.pushItem table priority traj).pending = [⟨w.gen w.drawn, table, priority, traj, []⟩] := by
        simp [pushItem, hp0]
      have hbl : w.blocks ρ = w.chunks.map fun c => (c.key, ρ c.key) := by simp [blocks, hb]
      rw [hbl] at hp
      have hnd : (w.chunks.map ChunkData.key).Nodup := (List.nodup_append.mp hd.keys).1
      have hr0 : Ready (fun _ _ => True) w.chunks (w.pushItem table priority traj).pending := by
        rw [hpi]
        refine ⟨fun it hit k hk => ?_, fun it hit chs g1 g2 => trivial⟩
        simp only [List.mem_singleton] at hit
        subst hit
        have := hp.keys k hk
        rw [List.map_map] at this
        exact this
      have hw0 := writeRounds_spec (good := fun _ _ => True) true (as.length + 1) (w.pushItem table priority traj) as
        (hsp.mono fun _ _ _ => trivial) hr0 hnd
      rw [show writeRounds true (as.length + 1) (w.pushItem table priority traj) as = (w.pushItem table priority traj).writeWithRetries true as from rfl] at hw0
      have hdr : ((w.pushItem table priority traj).writeWithRetries true as).1.drawn = w.drawn + 1 := core_drawn hw0.eff.core
      intro hnew
      have hgood : A' ⟨w.gen w.drawn, table, priority, traj, []⟩ (lastSteps n.toNat H) := by
        refine hnew traj ?_ hle
        revert hdr
        obtain ⟨a, r, b⟩ := (w.pushItem table priority traj).writeWithRetries true as
        rcases r with (_ | _) | _ | _ <;> exact fun h => h
      have hr : Ready (Good A' m) w.chunks (w.pushItem table priority traj).pending := by
        rw [hpi]
        refine ⟨fun it hit k hk => ?_, fun it hit chs g1 g2 => ?_⟩
        · simp only [List.mem_singleton] at hit
          subst hit
          have := hp.keys k hk
          rw [List.map_map] at this
          exact this
        · simp only [List.mem_singleton] at hit
          subst hit
          exact ⟨_, hgood, hp.shows hd.has g1 g2⟩
      have hw := writeRounds_spec (good := Good A' m) true (as.length + 1) (w.pushItem table priority traj) as hsp hr hnd
      rw [show writeRounds true (as.length + 1) (w.pushItem table priority traj) as = (w.pushItem table priority traj).writeWithRetries true as from rfl] at hw
      obtain ⟨⟨w1, r1, as1⟩, he⟩ : ∃ x, (w.pushItem table priority traj).writeWithRetries true as = x := ⟨_, rfl⟩
      rw [he] at hw hdr ⊢
      have hdr : w1.drawn = w.drawn + 1 := hdr
      have hdl : w.drawn ≤ w1.drawn := by omega
      have hsinv : SInv (Good A' m) w1 := hw.sinv
      have heff : Eff (w.pushItem table priority traj) w1 := hw.eff
      have hkept : ∀ it ∈ w.pending, it ∈ w1.pending ∨ w1.OnStream it := by rw [hp0]; simp
      have hgrow : ∀ it, w.OnStream it → w1.OnStream it := heff.grow
      have hgen : w1.gen = w.gen := (core_gen heff.core :)
      have hmsgs : ∀ msg ∈ w1.msgs, ∀ c ∈ msg.chunks, ∃ i < w.drawn + 1, c.key = w.gen i := by
        intro msg hmsg c hc
        rcases heff.msgs msg hmsg c hc with g1 | ⟨_, m', g1, g2⟩
        · obtain ⟨i, k1, k2⟩ := hd.drawn c.key (List.mem_append_left _ (List.mem_map.mpr ⟨c, g1, rfl⟩))
          exact ⟨i, Nat.lt_succ_of_lt k1, k2⟩
        · obtain ⟨i, k1, k2⟩ := hd.msgs m' g1 c g2
          exact ⟨i, Nat.lt_succ_of_lt k1, k2⟩
      cases r1 with
      | blocked => exact ⟨⟨hsinv, by simp, hkept, hgrow, hgen, hdl⟩, by simp⟩
      | died => exact ⟨⟨hsinv, by simp, hkept, hgrow, hgen, hdl⟩, by simp⟩
      | ret r =>
        cases r with
        | none =>
          have hp1 : w1.pending = [] := (hw.ok rfl).resolve_right h3
          have hon : w1.OnStream ⟨w.gen w.drawn, table, priority, traj, []⟩ := by
            obtain ⟨pre, e1, e2⟩ := heff.pend
            rw [hp1, List.append_nil, hpi] at e1
            exact e2 _ (by rw [← e1]; exact List.mem_cons_self)
          refine ⟨⟨hsinv, fun _ _ => ⟨by rw [hgen]; exact hi.inj, hsinv, fun _ => ⟨ρ, hd.steps, ?_, ?_, ?_, ?_, ?_, ?_, ?_, ?_⟩⟩, hkept, hgrow, hgen, hdl⟩,
            fun _ => ⟨hdr, _, rfl, rfl, rfl, .inr hon⟩⟩
          · rw [core_chunks heff.core, core_buffer heff.core]; exact hd.hist
          · rw [core_chunks heff.core]; exact hd.has
          · rw [core_chunks heff.core, core_nextKey heff.core]; exact hd.keys
          · rw [core_chunks heff.core, core_nextKey heff.core, core_drawn heff.core, core_gen heff.core]
            exact hd.draw.drawn
          · rw [core_drawn heff.core, core_gen heff.core]
            exact hmsgs
          · intro hh msg hmsg c hc
            rw [core_nextKey heff.core]
            rcases heff.msgs msg hmsg c hc with g1 | ⟨g0, m', g1, g2⟩
            · intro hk
              exact (List.nodup_append.mp hd.keys).2.2 _ (List.mem_map.mpr ⟨c, g1, rfl⟩) _ List.mem_cons_self hk
            · exact hd.fresh (g0 hh) m' g1 c g2
          · exact fun h => absurd hp1 h
          · rw [hp1]; simp
        | some e =>
          have hp1 : w1.pending.dropLast = [] := by
            obtain ⟨pre, e1, _⟩ := heff.pend
            rw [hpi] at e1
            have hlen := congrArg List.length e1
            simp only [List.length_cons, List.length_nil, List.length_append] at hlen
            apply List.eq_nil_of_length_eq_zero
            rw [List.length_dropLast]
            omega
          have hse : SInv (Good A' m) { w1 with pending := w1.pending.dropLast } := by
            refine ⟨hsinv.past, hsinv.cur, hsinv.none, fun g1 g2 srv => ?_⟩
            obtain ⟨cache, ins, hl⟩ := hsinv.live g1 g2 srv
            exact ⟨cache, ins, hl.served, hl.inserted, hl.stored, hl.streamed⟩
          refine ⟨⟨hse, fun _ _ => ⟨by show ∀ i j, w1.gen i = w1.gen j → i = j; rw [hgen]; exact hi.inj, hse, fun _ => ⟨ρ, ?_⟩⟩, by rw [hp0]; simp, hgrow, hgen, hdl⟩, by simp⟩
          refine hd.draw.shrink (core_buffer heff.core :) (core_chunks heff.core :) (core_nextKey heff.core :) (core_drawn heff.core :) hgen ?_ hmsgs ?_
          · intro it hit
            have hit : it ∈ w1.pending.dropLast := hit
            rw [hp1] at hit
            cases hit
          · rcases hw.err e rfl with h | ⟨h, _⟩
            · exact .inr (.inl (hsinv.none h).1)
            · exact .inl h.half
    · rw [if_neg hb]
      intro hnew
      have hgood : A' ⟨w.gen w.drawn, table, priority, traj, []⟩ (lastSteps n.toNat H) := hnew traj rfl hle
      refine ⟨⟨hsp, fun _ _ => ⟨hi.inj, hsp, fun _ => ⟨ρ, hd.steps, hd.hist, hd.has, hd.keys, hd.draw.drawn, hd.draw.msgs, hd.fresh, fun _ => hb, ?_⟩⟩,
        fun it hit => .inl (List.mem_append_left _ hit), fun _ h => h, rfl, Nat.le_succ _⟩,
        fun _ => ⟨rfl, _, rfl, rfl, rfl, .inl (List.mem_append_right _ List.mem_cons_self)⟩⟩
      intro it hit
      rcases List.mem_append.mp hit with hit | hit
      · exact hd.items it hit
      · simp only [List.mem_singleton] at hit
        subst hit
        exact ⟨_, hgood, hp⟩

theorem Inv.quiet {A : WItem → List Timestep → Prop} {m : Nat} {H : List Timestep} {w w' : Writer} (hi : Inv A m H w) (q : w.Quiet w') : Inv A m H w' := by
  have hs := q.sinv hi.sinv
  obtain ⟨i, r, a, rfl⟩ := q
  refine ⟨hi.inj, hs, fun hc => ?_⟩
  obtain ⟨ρ, hd⟩ := hi.data hc
  exact ⟨ρ, hd.steps, hd.hist, hd.has, hd.keys, hd.drawn, hd.msgs, hd.fresh, hd.pend, hd.items⟩

theorem Quiet.kept {w w' : Writer} (q : w.Quiet w') : ∀ it ∈ w.pending, it ∈ w'.pending ∨ w'.OnStream it :=
  fun _ hit => .inl (q.pending ▸ hit)

/-- `Finish` in `Flush` and `Close`. -/
theorem Finished.step {A : WItem → List Timestep → Prop} {m : Nat} {H : List Timestep} {w : Writer} {ρ : Key → List Timestep} {as : List Answer}
    {res : Writer × Ret (Option Code) × List Answer} (hf : Finished A m H w as res) (hi : Inv A m H w) (hd : DInv A m H w ρ)
    (hr : ∀ r, res.2.1 = .ret r → (r = none → .finish none ∉ as)) : Step A m H w res := by
  refine ⟨hf.sinv, fun r hret => ⟨by rw [hf.gen]; exact hi.inj, hf.sinv, fun _ => ?_⟩, kept_of hf.pend, hf.grow, hf.gen, hf.drawn⟩
  cases r with
  | none => exact (hf.ok hret (hr none hret rfl)).2.2.2
  | some e =>
    obtain ⟨hcore, hst⟩ := hf.err e hret
    exact ⟨ρ, hd.shrink (core_buffer hcore) (core_chunks hcore) (core_nextKey hcore) (core_drawn hcore) (core_gen hcore) (sub_of hf.pend) hf.msgs
      (gone hf.sinv hst)⟩

theorem flush_step {A : WItem → List Timestep → Prop} {m : Nat} {H : List Timestep} {w : Writer} (hi : Inv A m H w) {as : List Answer}
    (hs : .finish none ∉ as) : Step A m H w (w.flush as) := by
  unfold flush
  by_cases hc : w.closed = true
  · rw [if_pos hc]; exact .same hi _ _
  have hc' : w.closed = false := by simpa using hc
  rw [if_neg hc]
  obtain ⟨ρ, hd⟩ := hi.data hc'
  split
  · exact (finish_spec hi.inj hi.sinv hd true as).step hi hd fun _ _ _ => hs
  · have hq := confirmItems_quiet 0 as w
    obtain ⟨⟨w1, r1, as1⟩, he⟩ : ∃ x, confirmItems 0 as w = x := ⟨_, rfl⟩
    rw [he] at hq ⊢
    have hq : w.Quiet w1 := hq
    have hi1 : Inv A m H w1 := hi.quiet hq
    cases r1 with
    | blocked => exact ⟨hi1.sinv, fun _ _ => hi1, hq.kept, hq.eff.grow, (core_gen hq.eff.core :), Nat.le_of_eq (core_drawn hq.eff.core).symm⟩
    | died => exact ⟨hi1.sinv, fun _ _ => hi1, hq.kept, hq.eff.grow, (core_gen hq.eff.core :), Nat.le_of_eq (core_drawn hq.eff.core).symm⟩
    | ret b => cases b <;> exact ⟨hi1.sinv, fun _ _ => hi1, hq.kept, hq.eff.grow, (core_gen hq.eff.core :), Nat.le_of_eq (core_drawn hq.eff.core).symm⟩

theorem SInv.closeEnd {good : WItem → List ChunkData → Prop} {w : Writer} (h : SInv good w) (hs : w.stream = false) : SInv good w.closeEnd :=
  ⟨h.past, h.cur, h.none, fun h1 => by have h1 : w.stream = true := h1; rw [hs] at h1; cases h1⟩

theorem closeStream_spec {good : WItem → List ChunkData → Prop} {w : Writer} (hi : SInv good w) (as : List Answer) :
    SInv good (w.closeStream as).1 ∧ (∀ r, (w.closeStream as).2.1 = .ret r → (w.closeStream as).1.closed = true) ∧
      ((w.closeStream as).1.gen = w.gen ∧ (w.closeStream as).1.drawn = w.drawn) ∧ (w.closeStream as).1.pending = w.pending ∧ ∀ it, w.OnStream it → (w.closeStream as).1.OnStream it := by
  unfold closeStream
  split
  · rename_i hs
    exact ⟨hi.closeEnd hs, fun _ _ => rfl, ⟨rfl, rfl⟩, rfl, fun _ h => h⟩
  · rename_i hs
    have hs : w.stream = true := by simpa using hs
    have hq := confirmItems_quiet 0 as { w with half := true }
    obtain ⟨⟨w1, r1, as1⟩, he⟩ : ∃ x, confirmItems 0 as { w with half := true } = x := ⟨_, rfl⟩
    rw [he] at hq ⊢
    have q1 : Quiet { w with half := true } w1 := hq
    have i1 : SInv good w1 := q1.sinv (hi.halve hs)
    have e1 : w.Eff w1 := (halve_eff w).trans q1.eff
    have p1 : w1.pending = w.pending := q1.pending
    have g1 : w1.gen = w.gen ∧ w1.drawn = w.drawn := ⟨core_gen e1.core, core_drawn e1.core⟩
    cases r1 with
    | blocked => exact ⟨i1, by simp, g1, p1, e1.grow⟩
    | died => exact ⟨i1, by simp, g1, p1, e1.grow⟩
    | ret b =>
      dsimp only
      have hq2 := stopWorker_quiet w1 as1
      obtain ⟨⟨w2, r2, as2⟩, he2⟩ : ∃ x, w1.stopWorker as1 = x := ⟨_, rfl⟩
      rw [he2] at hq2 ⊢
      have q2 : w1.Quiet w2 := hq2
      have i2 : SInv good w2 := q2.sinv i1
      have e2 : w.Eff w2 := e1.trans q2.eff
      have p2 : w2.pending = w.pending := q2.pending.trans p1
      have g2 : w2.gen = w.gen ∧ w2.drawn = w.drawn := ⟨core_gen e2.core, core_drawn e2.core⟩
      cases r2 with
      | blocked => exact ⟨i2, by simp, g2, p2, e2.grow⟩
      | died => exact ⟨i2, by simp, g2, p2, e2.grow⟩
      | ret b =>
        cases as2 with
        | nil => exact ⟨i2, by simp, g2, p2, e2.grow⟩
        | cons a as3 =>
          cases a with
          | write ok => exact ⟨i2, by simp, g2, p2, e2.grow⟩
          | confirms n dead => exact ⟨i2, by simp, g2, p2, e2.grow⟩
          | finish st => exact ⟨i2.drop.closeEnd rfl, fun _ _ => rfl, g2, p2, fun it h => (e2.trans (dropStream_eff w2)).grow it h⟩

theorem close_step {A : WItem → List Timestep → Prop} {m : Nat} {H : List Timestep} {w : Writer} (hi : Inv A m H w) (retry : Bool) (as : List Answer) :
    Step A m H w (w.close retry as) := by
  have hcs : ∀ (w1 : Writer) (as1 : List Answer), SInv (Good A m) w1 → w1.gen = w.gen → w.drawn ≤ w1.drawn → (∀ it ∈ w.pending, it ∈ w1.pending ∨ w1.OnStream it) →
      (∀ it, w.OnStream it → w1.OnStream it) → Step A m H w (w1.closeStream as1) := by
    intro w1 as1 s1 g1 d1 k1 gr1
    obtain ⟨c1, c2, c3, c4, c5⟩ := closeStream_spec s1 as1
    refine ⟨c1, fun r hr => ⟨by rw [c3.1, g1]; exact hi.inj, c1, fun hc => ?_⟩, fun it hit => ?_, fun it h => c5 it (gr1 it h),
      c3.1.trans g1, by rw [c3.2]; exact d1⟩
    · rw [c2 r hr] at hc; cases hc
    · rcases k1 it hit with h | h
      · exact .inl (by rw [c4]; exact h)
      · exact .inr (c5 it h)
  unfold close
  by_cases hc : w.closed = true
  · rw [if_pos hc]; exact .same hi _ _
  have hc' : w.closed = false := by simpa using hc
  rw [if_neg hc]
  obtain ⟨ρ, hd⟩ := hi.data hc'
  split
  · exact hcs w as hi.sinv rfl (Nat.le_refl _) (fun _ h => .inl h) fun _ h => h
  · have hf := finish_spec hi.inj hi.sinv hd retry as
    have hstep := fun h => hf.step hi hd h
    obtain ⟨⟨w1, r1, as1⟩, he⟩ : ∃ x, w.finish retry as = x := ⟨_, rfl⟩
    rw [he] at hf hstep ⊢
    cases r1 with
    | blocked => exact hstep (by simp)
    | died => exact hstep (by simp)
    | ret r =>
      cases r with
      | none => exact hcs w1 as1 hf.sinv hf.gen hf.drawn (kept_of hf.pend) hf.grow
      | some e =>
        dsimp only
        split
        · exact hcs w1 as1 hf.sinv hf.gen hf.drawn (kept_of hf.pend) hf.grow
        · exact hstep (by simp)

theorem call_step {A A' : WItem → List Timestep → Prop} (hA : ∀ it x, A it x → A' it x) {m : Nat} {H : List Timestep} {w : Writer}
    (hi : Inv A m H w) {c : Call} {as : List Answer} (hs : w.Sound m (c, as))
    (hnew : ∀ table priority traj, ∀ n : Nat, c = .createItem table n priority → (w.createItem table n priority as).1.drawn = w.drawn + 1 →
      n ≤ H.length → A' ⟨w.gen w.drawn, table, priority, traj, []⟩ (lastSteps n H)) :
    Step A' m (H ++ w.appended (c, as)) w (w.call c as) := by
  cases c with
  | append data => exact append_step (hi.mono hA) hs
  | createItem table n priority =>
    simp only [appended, List.append_nil]
    refine (createItem_step hA hi hs fun traj hdr hle => ?_).1
    have := hs.1
    have hn : ((n.toNat : Nat) : Int) = n := Int.toNat_of_nonneg (by omega)
    exact hnew table priority traj n.toNat (by rw [hn]) (by rw [hn]; exact hdr) hle
  | flush =>
    simp only [appended, List.append_nil]
    exact flush_step (hi.mono hA) hs
  | close retry =>
    simp only [appended, List.append_nil]
    exact close_step (hi.mono hA) retry as

end Writer
end Verif
