import Verif.Spec.EndToEnd
import Verif.Proofs.Service
import Verif.Proofs.Links
import Verif.Proofs.TrajSent
import Verif.Props.C33_Columns
import Verif.Props.C45_C68_ClientSampler
import Verif.Props.C55_C58_SampleSync
import Verif.Props.C69_SampleOrder
/-
From writers through a server to a sampler, for any server that keeps what it is given.
-/
namespace Verif

theorem TrajWriter.mem_added {it : WItem} : ∀ {w : TrajWriter} {evs : List TrajWriter.Event}, it ∈ w.added evs →
    ∃ pre t p cols post, evs = pre ++ .createItem t p cols :: post ∧ w.replyAt pre (.createItem t p cols) = .ok (.item it.key) ∧
      it = (w.run pre).makeItem t p cols
  | w, [], h => by simp [TrajWriter.added] at h
  | w, e :: evs, h => by
    simp only [TrajWriter.added, List.mem_append] at h
    rcases h with h | h
    · unfold TrajWriter.Event.adds at h
      split at h
      · rename_i t p cols k hk
        simp only [List.mem_singleton] at h
        subst h
        have hkey := TrajWriter.adds_creates w (.createItem t p cols)
        rw [hk] at hkey
        have : (w.makeItem t p cols).key = k := by simpa [TrajWriter.Event.adds, TrajWriter.Event.creates] using hkey
        exact ⟨[], t, p, cols, evs, rfl, by rw [this]; exact hk, rfl⟩
      · simp at h
    · obtain ⟨pre, t, p, cols, post, rfl, h2, h3⟩ := mem_added h
      exact ⟨e :: pre, t, p, cols, post, rfl, h2, h3⟩

/-- The chunks of items that a server gets were sent on the stream. -/
theorem serveAll_sent {srv : Server} : ∀ {s : List Msg} {cache0 cache : Cache} {ins : List (WItem × List ChunkData)},
    serveAll srv cache0 s = .ok (cache, ins) → ∀ y ∈ ins, ∀ ch ∈ y.2, (∃ k, cache0.get? k = some ch) ∨ ∃ m ∈ s, ch ∈ m.chunks
  | [], cache0, cache, ins, h, y, hy, ch, hch => by
    simp only [serveAll, Res.ok.injEq, Prod.mk.injEq] at h
    rw [← h.2] at hy
    simp at hy
  | m :: s, cache0, cache, ins, h, y, hy, ch, hch => by
    simp only [serveAll] at h
    rcases h1 : serve srv cache0 m with ⟨c1, i1⟩ | _ | _ <;> simp only [h1] at h
    · rcases h2 : serveAll srv c1 s with ⟨c2, i2⟩ | _ | _ <;> simp only [h2] at h
      · simp only [Res.ok.injEq, Prod.mk.injEq] at h
        obtain ⟨_, rfl⟩ := h
        have hsave : ∀ k, (saveChunks srv cache0 m.chunks).get? k = some ch → (∃ k, cache0.get? k = some ch) ∨ ∃ m' ∈ m :: s, ch ∈ m'.chunks := by
          intro k hk
          rcases saveChunks_get srv m.chunks cache0 k ch hk with g | ⟨g, _⟩
          · exact .inl ⟨k, g⟩
          · exact .inr ⟨m, List.mem_cons_self, g⟩
        rcases List.mem_append.mp hy with hy | hy
        · unfold serve at h1
          split at h1
          · cases h1
          · split at h1
            · cases h1; simp at hy
            · split at h1
              · cases h1
              · rename_i chunks hf
                split at h1
                · cases h1
                · cases h1
                  simp only [Option.toList_some, List.mem_singleton] at hy
                  subst hy
                  have hg : some ch ∈ chunks.map some := List.mem_map_of_mem hch
                  rw [findChunks_get hf] at hg
                  obtain ⟨k, _, hk⟩ := List.mem_map.mp hg
                  exact hsave k hk
        · rcases serveAll_sent h2 y hy ch hch with ⟨k, hk⟩ | ⟨m', hm', hc⟩
          · have hsub : (saveChunks srv cache0 m.chunks).get? k = some ch := by
              unfold serve at h1
              split at h1
              · cases h1
              · split at h1
                · cases h1; exact hk
                · split at h1
                  · cases h1
                  · split at h1
                    · cases h1
                    · rename_i c hrel
                      cases h1
                      rw [releaseChunks_eq hrel, AMap.get?_keep] at hk
                      split at hk
                      · exact hk
                      · cases hk
            exact hsave k hsub
          · exact .inr ⟨m', List.mem_cons_of_mem _ hm', hc⟩
      · cases h
      · cases h
    · cases h
    · cases h

open Service (Prov SentBy)

/-- A server that has got the requests `ins` on its insert streams and `ask` on its sample streams, has taken the samples `got` from its tables and has
written `written`: the samples are of items that were sent, and what was written are these samples. -/
structure Flow (w : Wire) (ins : Nat → List InsertReq) (ask : Nat → List SampleReq) (got : Nat → List (String × Sampled))
    (written : Nat → List Entry) : Prop where
  key : ∀ k, (w.content k).key = k
  prov : ∀ q, ∀ y ∈ got q, Prov ins y.1 y.2.item ∧ ∃ r ∈ ask q, r.table = y.1
  sent : ∀ q, clientSamples (written q) <+: localSamples w (got q)

namespace Flow
variable {w : Wire} {ins : Nat → List InsertReq} {ask : Nat → List SampleReq} {got : Nat → List (String × Sampled)} {written : Nat → List Entry}

theorem origin (F : Flow w ins ask got written)  (hc : ContentsOf w ins) (q : Nat) :
    (∀ y ∈ got q, (∃ r ∈ ask q, r.table = y.1) ∧
      SentOn ins y.1 y.2.item.key (y.2.sent w).traj (y.2.sent w).chunks) ∧
    clientSamples (written q) <+: localSamples w (got q) := by
  obtain ⟨h1, h2⟩ := And.intro (F.prov q) (F.sent q)
  refine ⟨fun y hy => ?_, h2⟩
  obtain ⟨⟨hval, s, r, hr, it, g1, g2, g3, g4, g5⟩, ha⟩ := h1 y hy
  have hkeys : (y.2.sent w).chunks.map ChunkData.key = getChunkKeys y.2.item.traj := by
    rw [itemValid_keys hval]
    simp [Sampled.sent, F.key]
  refine ⟨ha, ⟨s, r, hr, it, g1, g2, g3, g4, fun ch hch => ?_⟩, hkeys⟩
  have hk : ch.key ∈ getChunkKeys y.2.item.traj := by rw [← hkeys]; exact List.mem_map_of_mem hch
  obtain ⟨r', hr', ch', hc', e⟩ := g5 _ hk
  have h3 := hc s r' hr' ch' hc'
  obtain ⟨cr, _, rfl⟩ := List.mem_map.mp hch
  rw [F.key] at e
  rw [e] at h3
  exact ⟨r', hr', by rw [h3]; exact hc'⟩

theorem made (F : Flow w ins ask got written)  (hc : ContentsOf w ins) {q : Nat} {y : String × Sampled} (hy : y ∈ got q) :
    ∃ s, (∃ r ∈ ins s, ∃ it, r.item = some it ∧ it.table = y.1 ∧ it.key = y.2.item.key) ∧
      ∀ (W : TrajWriter) (E : List TrajWriter.Event) (str : List Msg), W.Started → (∀ e ∈ E, e.Valid) → str ∈ (W.run E).streams →
        ins s <+: str.map Msg.toReq →
        ∃ pre cols, W.Made E y.1 y.2.item.key pre cols ∧
          ((∀ col ∈ cols, (W.run pre).Contiguous col.refs) → ∀ values, W.Gives pre cols values →
            ∃ smp out, asSampleLocal (y.2.sent w) = .ok smp ∧ smp.asTrajectory = .ok out ∧ TrajWriter.ReadsBack cols values out) := by
  obtain ⟨⟨hval, s, r, hrm, it, g1, g2, g3, g4, g5⟩, _⟩ := F.prov q y hy
  refine ⟨s, ⟨r, hrm, it, g1, g2, g3⟩, fun W E str hW hE hstr hpre => ?_⟩
  obtain ⟨ms, mt, rfl, hms⟩ : ∃ ms mt, str = ms ++ mt ∧ ms.map Msg.toReq = ins s := by
    obtain ⟨tail, ht⟩ := hpre
    obtain ⟨l1, l2, e1, e2, e3⟩ := List.map_eq_append_iff.mp ht.symm
    exact ⟨l1, l2, e1, e2⟩
  -- the item among those of the writer
  obtain ⟨m, hm, rfl⟩ : ∃ m ∈ ms, m.toReq = r := by
    replace hrm : r ∈ ins s := hrm
    rw [← hms] at hrm
    exact List.mem_map.mp hrm
  obtain ⟨⟨wi, keep⟩, hmi, rfl⟩ : ∃ x, m.item = some x ∧ it = ⟨x.1.key, x.1.table, x.1.priority, 0, x.1.traj, x.2, true⟩ := by
    simp only [Msg.toReq, Option.map_eq_some_iff] at g1
    obtain ⟨x, e1, e2⟩ := g1
    exact ⟨x, e1, e2.symm⟩
  simp only at g2 g3 g4
  obtain ⟨rows, P, hI⟩ := hW.run hE
  obtain ⟨cache, ins, hsv, hins⟩ := hI.served hstr .sync
  obtain ⟨c1, i1, i2, hs1, _, rfl⟩ := serveAll_split hsv
  have hwi : wi ∈ itemsOf ms := List.mem_filterMap.mpr ⟨m, hm, by rw [hmi]; rfl⟩
  have hin : ∃ chunks, (wi, chunks) ∈ i1 := by
    rw [← serveAll_items hs1] at hwi
    obtain ⟨⟨a, b⟩, e1, rfl⟩ := List.mem_map.mp hwi
    exact ⟨b, e1⟩
  obtain ⟨chunks, hin⟩ := hin
  have hadd : wi ∈ W.added E := by
    obtain ⟨a, b, hab⟩ := hI.infix hstr
    rw [← hab, itemsOf_append]
    simp [hwi]
  obtain ⟨pre, t, p, cols, post, rfl, hrep, hmk⟩ := TrajWriter.mem_added hadd
  have ht : wi.table = t := by rw [hmk]; rfl
  have htn : t = y.1 := ht.symm.trans g2
  subst htn
  rw [g3] at hrep
  -- the chunks
  have hck : chunks = (y.2.sent w).chunks := by
    have hk1 : chunks.map ChunkData.key = getChunkKeys y.2.item.traj := by
      rw [← g4]
      exact (hins _ (List.mem_append_left _ hin)).1
    have hk2 : (y.2.sent w).chunks = (getChunkKeys y.2.item.traj).map w.content := by
      rw [itemValid_keys hval]
      simp [Sampled.sent]
    rw [hk2, ← hk1, List.map_map]
    refine (List.map_id chunks).symm.trans (List.map_congr_left fun ch hch => ?_)
    rcases serveAll_sent hs1 _ hin ch hch with ⟨k, hk⟩ | ⟨m', hm', hch'⟩
    · cases hk
    · exact (hc s m'.toReq (by rw [← hms]; exact List.mem_map_of_mem hm') ch hch').symm
  refine ⟨pre, cols, ⟨p, post, rfl, hrep⟩, fun hcont values hval' => ?_⟩
  obtain ⟨_, _, smp, out, e1, e2, e3, e4⟩ := TrajWriter.C33_contiguous_partial hW hE hrep hcont hval'.length hval'.names hstr hsv
    (List.mem_append_left _ hin) g3 (y.2.sent w).info
  refine ⟨smp, out, ?_, e2, e3, e4⟩
  rw [← e1, hck, g4]
  rfl

theorem sampler (F : Flow w ins ask got written)  {c : SamplerCfg} {t : String} {a b : Int} (hsrc : c.source = .grpc t a b) {now : Int}
    {cev : List ClientSampler.Event} {u : ClientSampler} {L : Links} (hl : ClientSampler.Linked c now written cev u L) :
    L.opened.Nodup ∧ u.arrived.Perm (L.opened.flatMap L.came) ∧ ∀ q, (L.came q).map .ok <+: localSamples w (got q) := by
  have h := ClientSampler.linv hsrc hl
  exact ⟨h.nodup, h.perm, fun q => (h.pre q).trans ((SyncSampler.clientSamples_prefix (h.written q)).trans (F.sent q))⟩

theorem end_to_end (F : Flow w ins ask got written)  (hc : ContentsOf w ins) {c : SamplerCfg} (hcv : c.Valid) {t : String} {a b : Int}
    (hsrc : c.source = .grpc t a b) {now : Int} {cev : List ClientSampler.Event} {u : ClientSampler} {L : Links}
    (hl : ClientSampler.Linked c now written cev u L) (hnt : ∀ e ∈ cev, ClientSampler.NoTimesteps e)
    (hask : ∀ q ∈ L.opened, ∀ r ∈ ask q, r ∈ u.sent) {out : List Tensor} (ho : .trajectory out ∈ u.log) :
    ∃ s key, (∃ r ∈ ins s, ∃ it, r.item = some it ∧ it.table = t ∧ it.key = key) ∧
      ∀ (W : TrajWriter) (E : List TrajWriter.Event) (str : List Msg), W.Started → (∀ e ∈ E, e.Valid) → str ∈ (W.run E).streams →
        ins s <+: str.map Msg.toReq →
        ∃ pre cols, W.Made E t key pre cols ∧
          ((∀ col ∈ cols, (W.run pre).Contiguous col.refs) → ∀ values, W.Gives pre cols values → TrajWriter.ReadsBack cols values out) := by
  have hreach : ClientSampler.Reach c now (fun _ e => ClientSampler.NoTimesteps e) cev u := hl.reach fun _ e he => hnt e he
  obtain ⟨taken, done, h1, h2, h3⟩ := C69_once hreach
  have hacc : ∀ {done : List (SampleCall × Sample)} {log : List SampleOut}, ClientSampler.Accounts c done log → .trajectory out ∈ log →
      ∃ x ∈ done, x.2.asTrajectory = .ok out := by
    intro done log hA
    induction hA with
    | nil => intro h; simp at h
    | @sample done log k s o _ hk ih =>
      intro h
      rcases List.mem_append.mp h with h | h
      · obtain ⟨x, g1, g2⟩ := ih h
        exact ⟨x, List.mem_append_left _ g1, g2⟩
      · simp only [List.mem_singleton] at h
        subst h
        refine ⟨(k, s), by simp, ?_⟩
        cases k with
        | timestep => cases hk
        | batched =>
          simp only [SampleCall.outcome] at hk
          split at hk
          · cases hk
          · cases hk
          · split at hk <;> cases hk
        | trajectory =>
          simp only [SampleCall.outcome] at hk
          split at hk
          · cases hk
          · cases hk
          · rename_i cols hcol
            split at hk
            · cases hk
            · cases hk; exact hcol
    | other st _ ih =>
      intro h
      rcases List.mem_append.mp h with h | h
      · exact ih h
      · simp at h
  obtain ⟨x, hx, hxt⟩ := hacc h2 ho
  have harr : x.2 ∈ u.arrived := by
    rw [h1]
    exact List.mem_append_left _ (h3.symm.subset (List.mem_append_left _ (List.mem_map_of_mem hx)))
  obtain ⟨_, hperm, hpre⟩ := F.sampler hsrc hl
  obtain ⟨q, hq, hqx⟩ := List.mem_flatMap.mp (hperm.subset harr)
  have hmem : Res.ok x.2 ∈ localSamples w (got q) := (hpre q).subset (List.mem_map_of_mem hqx)
  obtain ⟨y, hy, hys⟩ := List.mem_map.mp hmem
  obtain ⟨r, hrq, hrt⟩ := (F.prov q y hy).2
  obtain ⟨t', _, _, e1, e2, _⟩ := C45_request_size hcv hreach (hask q hq r hrq)
  rw [hsrc] at e1
  cases e1
  obtain ⟨s, hs, hW⟩ := F.made hc hy
  rw [← hrt, e2] at hs
  refine ⟨s, y.2.item.key, hs, fun W E str k1 k2 k3 k4 => ?_⟩
  obtain ⟨pre, cols, g1, g2⟩ := hW W E str k1 k2 k3 k4
  rw [← hrt, e2] at g1
  refine ⟨pre, cols, g1, fun hcont values hv => ?_⟩
  obtain ⟨smp, out', f1, f2, f3⟩ := g2 hcont values hv
  rw [hys] at f1
  cases f1
  rw [hxt] at f2
  cases f2
  exact f3

end Flow
end Verif
