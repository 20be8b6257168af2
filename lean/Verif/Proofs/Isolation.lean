import Verif.Spec.Isolation
import Verif.Proofs.Service
/-
What a step of the server does to its tables.
-/
namespace Verif
open Table (Op)
namespace Service

/-- The item that a stream is inserting. -/
def inserting (m : AMap Nat SyncStream) (s : Nat) (it : InsertItem) (item : Item) : Prop :=
  ∃ cache wt, m.get? s = some ⟨cache, .inserting it item wt⟩

/-- Change of a stream. -/
theorem inserting_set {m : AMap Nat SyncStream} {s s' : Nat} {x : SyncStream} {it : InsertItem} {item : Item}
    (h : inserting (m.insert s x) s' it item) : inserting m s' it item ∨ (s' = s ∧ ∃ wt, x.phase = .inserting it item wt) := by
  obtain ⟨cache, wt, h⟩ := h
  rw [AMap.get?_insert] at h
  split at h
  · cases h; exact .inr ⟨by assumption, wt, rfl⟩
  · exact .inl ⟨cache, wt, h⟩

/-- `release` leaves the tables and starts no insert. -/
theorem release_frame (v : SyncServer) (s : Nat) (x : SyncStream) (it : InsertItem) : (v.release s x it).tables = v.tables ∧
    ∀ s' it' item, inserting (v.release s x it).streams s' it' item → inserting v.streams s' it' item := by
  unfold SyncServer.release
  split
  · exact ⟨rfl, fun _ _ _ h => h⟩
  · refine ⟨rfl, fun s' it' item h => ?_⟩
    rcases inserting_set h with h | ⟨_, _, h⟩
    · exact h
    · cases h

/-- `inserted` leaves the tables, starts no insert, and notes a fatal error. -/
theorem inserted_frame (v : SyncServer) (s : Nat) (x : SyncStream) (it : InsertItem) (item : Item) (res : Res Table.Reply) :
    (v.inserted s x it item res).tables = v.tables ∧ (res = .died → (v.inserted s x it item res).dead = true) ∧
    ∀ s' it' item', inserting (v.inserted s x it item res).streams s' it' item' → inserting v.streams s' it' item' ∨
      (s' = s ∧ it' = it ∧ item' = item) := by
  unfold SyncServer.inserted
  split
  · split
    · refine ⟨rfl, (by simp), fun s' it' item' h => ?_⟩
      rcases inserting_set h with h | ⟨_, _, h⟩
      · exact .inl h
      · cases h
    · obtain ⟨h1, h2⟩ := release_frame v s x it
      exact ⟨h1, by simp, fun s' it' item' h => .inl (h2 s' it' item' h)⟩
  · refine ⟨rfl, (by simp), fun s' it' item' h => ?_⟩
    rcases inserting_set h with h | ⟨h1, _, h⟩
    · exact .inl h
    · cases h; exact .inr ⟨h1, rfl, rfl⟩
  · exact ⟨rfl, fun _ => rfl, fun _ _ _ h => .inl h⟩
  · refine ⟨rfl, (by simp), fun s' it' item' h => ?_⟩
    rcases inserting_set h with h | ⟨_, _, h⟩
    · exact .inl h
    · cases h
  · exact ⟨rfl, fun _ => rfl, fun _ _ _ h => .inl h⟩

/-- What the insert of a table is called with. -/
theorem take_frame {v : SyncServer} {cache : Cache} {r : InsertReq} {it : InsertItem} {item : Item} {wt : Bool}
    (h : (v.take ⟨cache, .reading⟩ r).phase = .inserting it item wt) : r.item = some it ∧ ∃ chunks, item = it.toItem chunks ∧
      findChunks (saveChunks .sync cache r.chunks) (getChunkKeys it.traj) = some chunks := by
  unfold SyncServer.take at h
  simp only at h
  split at h
  · cases h
  · rename_i it' hit
    split at h
    · cases h
    · split at h
      · cases h; exact ⟨hit, _, rfl, by assumption⟩
      · cases h

/-- The cache of a stream after a step: what was there before, and chunks of the request. -/
theorem cache_step {v v' : SyncServer} {e : SyncServer.Event} (he : ofStream e = true) (hs : v.step e = some v') {s : Nat} {x' : SyncStream}
    (hx : v'.streams.get? s = some x') {k : Key} {ch : ChunkData} (hk : x'.cache.get? k = some ch) :
    (∃ x, v.streams.get? s = some x ∧ x.cache.get? k = some ch) ∨ ∃ r, e = .request s r ∧ ch ∈ r.chunks ∧ ch.key = k := by
  have hset : ∀ {u : SyncServer} {s1 : Nat} {y : SyncStream}, u.streams = v.streams → (u.setStream s1 y).streams.get? s = some x' →
      (∀ k ch, y.cache.get? k = some ch → ∃ x, v.streams.get? s1 = some x ∧ x.cache.get? k = some ch) →
      ∃ x, v.streams.get? s = some x ∧ x.cache.get? k = some ch := by
    intro u s1 y hu h hy
    simp only [SyncServer.setStream, hu, AMap.get?_insert] at h
    split at h
    · cases h; rename_i hse; rw [hse]; exact hy k ch hk
    · exact ⟨x', h, hk⟩
  have hrel : ∀ {u : SyncServer} {s1 : Nat} {y y0 : SyncStream} {it : InsertItem}, u.streams = v.streams → (u.release s1 y it).streams.get? s = some x' →
      v.streams.get? s1 = some y0 → y0.cache = y.cache → ∃ x, v.streams.get? s = some x ∧ x.cache.get? k = some ch := by
    intro u s1 y y0 it hu h hy hc
    unfold SyncServer.release at h
    split at h
    · rw [hu] at h; exact ⟨x', h, hk⟩
    · rename_i c hrel
      refine hset hu h fun k ch g => ⟨y0, hy, ?_⟩
      rw [hc]; exact release_get hrel g
  unfold SyncServer.step at hs
  split at hs
  · cases hs
  · cases e with
    | start s1 =>
      simp only at hs
      split at hs
      · cases hs
      · cases hs
        exact .inl (hset rfl hx fun k ch g => by cases g)
    | request s1 r =>
      simp only at hs
      split at hs
      · rename_i cache hst
        cases hs
        simp only [SyncServer.setStream, AMap.get?_insert] at hx
        split at hx
        · rename_i hse
          subst hse
          have hc : (v.take ⟨cache, .reading⟩ r).cache = saveChunks .sync cache r.chunks := by
            unfold SyncServer.take; dsimp only
            repeat' (first | rfl | split)
          cases hx
          rw [hc] at hk
          rcases saveChunks_get .sync r.chunks cache k ch hk with h1 | h1
          · exact .inl ⟨_, hst, h1⟩
          · exact .inr ⟨r, rfl, h1⟩
        · exact .inl ⟨x', hx, hk⟩
      · cases hs
    | eof s1 =>
      simp only at hs
      split at hs
      · rename_i cache hst
        cases hs
        exact .inl (hset rfl hx fun k ch g => ⟨_, hst, g⟩)
      · cases hs
    | insert s1 now d =>
      simp only at hs
      split at hs
      · rename_i cache it item wt hst
        split at hs
        · cases hs
        · cases hs
          unfold SyncServer.inserted at hx
          split at hx
          · split at hx
            · exact .inl (hset rfl hx fun k ch g => ⟨_, hst, g⟩)
            · exact .inl (hrel (by rfl) hx hst rfl)
          · exact .inl (hset rfl hx fun k ch g => ⟨_, hst, g⟩)
          · exact .inl ⟨x', hx, hk⟩
          · exact .inl (hset rfl hx fun k ch g => ⟨_, hst, g⟩)
          · exact .inl ⟨x', hx, hk⟩
      · cases hs
    | confirm s1 ok =>
      simp only at hs
      split at hs
      · rename_i cache it hst
        split at hs
        · cases hs
          exact .inl (hrel (by rfl) hx hst rfl)
        · cases hs
          exact .inl (hset rfl hx fun k ch g => ⟨_, hst, g⟩)
      · cases hs
    | table name op => cases he

/-- An insert that waits has a well-formed item. -/
theorem wait_step {v v' : SyncServer} {e : SyncServer.Event} (he : ofStream e = true) (hs : v.step e = some v') {s : Nat} {cache : Cache} {it : InsertItem}
    {item : Item} (hx : v'.streams.get? s = some ⟨cache, .inserting it item true⟩) :
    (∃ cache, v.streams.get? s = some ⟨cache, .inserting it item true⟩) ∨ Table.itemValid item = true := by
  have hset : ∀ {u : SyncServer} {s1 : Nat} {y : SyncStream}, (u.setStream s1 y).streams.get? s = some ⟨cache, .inserting it item true⟩ →
      u.streams = v.streams → (y.phase = .inserting it item true → Table.itemValid item = true) →
      (∃ cache, v.streams.get? s = some ⟨cache, .inserting it item true⟩) ∨ Table.itemValid item = true := by
    intro u s1 y h hu hy
    simp only [SyncServer.setStream, hu, AMap.get?_insert] at h
    split at h
    · cases h; exact .inr (hy rfl)
    · exact .inl ⟨cache, h⟩
  have hrel : ∀ {u : SyncServer} {s1 : Nat} {y : SyncStream} {it' : InsertItem}, (u.release s1 y it').streams.get? s = some ⟨cache, .inserting it item true⟩ →
      u.streams = v.streams → (∃ cache, v.streams.get? s = some ⟨cache, .inserting it item true⟩) ∨ Table.itemValid item = true := by
    intro u s1 y it' h hu
    unfold SyncServer.release at h
    split at h
    · rw [← hu]; exact .inl ⟨cache, h⟩
    · exact hset h hu (by simp)
  unfold SyncServer.step at hs
  split at hs
  · cases hs
  · cases e with
    | start s1 =>
      simp only at hs
      split at hs
      · cases hs
      · cases hs; exact hset hx rfl (by simp)
    | request s1 r =>
      simp only at hs
      split at hs
      · cases hs
        refine hset hx rfl fun h => ?_
        unfold SyncServer.take at h; dsimp only at h
        split at h
        · cases h
        · split at h
          · cases h
          · split at h <;> cases h
      · cases hs
    | eof s1 =>
      simp only at hs
      split at hs
      · cases hs; exact hset hx rfl (by simp)
      · cases hs
    | insert s1 now d =>
      simp only at hs
      split at hs
      · rename_i cache1 it1 item1 wt1 hst
        split at hs
        · cases hs
        · rename_i t ht
          cases hs
          by_cases hw : wt1 = true
          · subst hw
            by_cases hse : s = s1
            · subst hse
              have : it1 = it ∧ item1 = item := by
                obtain ⟨_, _, f3⟩ := inserted_frame { v with tables := v.tables.insert it1.table (t.step (if true = true then .insertResume item1 now d
                  else .insert item1 now d)).1 } s ⟨cache1, .inserting it1 item1 true⟩ it1 item1 (t.step (if true = true then .insertResume item1 now d
                  else .insert item1 now d)).2
                rcases f3 s it item ⟨cache, true, hx⟩ with ⟨c, b, h⟩ | ⟨_, h1, h2⟩
                · have h' : v.streams.get? s = some ⟨c, .inserting it item b⟩ := h
                  rw [hst] at h'; cases h'; exact ⟨rfl, rfl⟩
                · exact ⟨h1.symm, h2.symm⟩
              obtain ⟨rfl, rfl⟩ := this
              exact .inl ⟨_, hst⟩
            · have hne : ∀ y, (({ v with tables := v.tables.insert it1.table (t.step (if true = true then .insertResume item1 now d
                  else .insert item1 now d)).1 } : SyncServer).setStream s1 y).streams.get? s = v.streams.get? s := fun y => by
                simp [SyncServer.setStream, AMap.get?_insert, hse]
              unfold SyncServer.inserted at hx
              split at hx
              · split at hx
                · rw [hne] at hx; exact .inl ⟨_, hx⟩
                · exact hrel hx rfl
              · rw [hne] at hx; exact .inl ⟨_, hx⟩
              · exact .inl ⟨_, hx⟩
              · rw [hne] at hx; exact .inl ⟨_, hx⟩
              · exact .inl ⟨_, hx⟩
          · rw [if_neg hw] at hx
            unfold SyncServer.inserted at hx
            split at hx
            · split at hx
              · exact hset hx rfl (by simp)
              · exact hrel hx rfl
            · rename_i hbl
              refine hset hx rfl fun h => ?_
              cases h
              apply Classical.byContradiction
              intro hv
              rw [Table.step, Table.insertOrAssign] at hbl
              simp [hv] at hbl
            · exact .inl ⟨_, hx⟩
            · exact hset hx rfl (by simp)
            · exact .inl ⟨_, hx⟩
      · cases hs
    | confirm s1 ok =>
      simp only at hs
      split at hs
      · split at hs
        · cases hs; exact hrel hx rfl
        · cases hs; exact hset hx rfl (by simp)
      · cases hs
    | table name op => cases he

/-- A step of an insert stream. -/
theorem insert_step {v v' : SyncServer} {e : SyncServer.Event} (he : ofStream e = true) (hs : v.step e = some v') :
    (∀ s it item, inserting v'.streams s it item → inserting v.streams s it item ∨
      ∃ r, e = .request s r ∧ r.item = some it ∧ ∃ chunks cache ph, item = it.toItem chunks ∧ v.streams.get? s = some ⟨cache, ph⟩ ∧
        findChunks (saveChunks .sync cache r.chunks) (getChunkKeys it.traj) = some chunks) ∧
    (v'.tables = v.tables ∨ ∃ s it item t op now, inserting v.streams s it item ∧ v.tables.get? it.table = some t ∧
      (∀ i now, Op.item op = some (i, now) → ∃ d, op = .insert i now d ∨ op = .insertResume i now d ∧ ∃ cache, v.streams.get? s = some ⟨cache, .inserting it i true⟩) ∧
      Op.item op = some (item, now) ∧ isCall op = false ∧ v'.tables = v.tables.insert it.table (t.step op).1 ∧
      ((t.step op).2 = .died → v'.dead = true)) := by
  have hset : ∀ {s : Nat} {x : SyncStream}, v' = v.setStream s x → (∀ it item wt, x.phase ≠ .inserting it item wt) →
      (∀ s it item, inserting v'.streams s it item → inserting v.streams s it item ∨
        ∃ r, e = .request s r ∧ r.item = some it ∧ ∃ chunks cache ph, item = it.toItem chunks ∧ v.streams.get? s = some ⟨cache, ph⟩ ∧
        findChunks (saveChunks .sync cache r.chunks) (getChunkKeys it.traj) = some chunks) ∧ v'.tables = v.tables := by
    intro s x hv hx
    subst hv
    refine ⟨fun s' it item h => ?_, rfl⟩
    rcases inserting_set h with h | ⟨_, wt, h⟩
    · exact .inl h
    · exact absurd h (hx _ _ _)
  unfold SyncServer.step at hs
  split at hs
  · cases hs
  · cases e with
    | start s =>
      simp only at hs
      split at hs
      · cases hs
      · obtain ⟨h1, h2⟩ := hset (Option.some.inj hs).symm (by simp)
        exact ⟨h1, .inl h2⟩
    | request s r =>
      simp only at hs
      split at hs
      · rename_i cache hst
        cases hs
        refine ⟨fun s' it item h => ?_, .inl rfl⟩
        rcases inserting_set h with h | ⟨rfl, wt, h⟩
        · exact .inl h
        · obtain ⟨h1, chunks, h2, h3⟩ := take_frame h
          exact .inr ⟨r, rfl, h1, chunks, cache, _, h2, hst, h3⟩
      · cases hs
    | eof s =>
      simp only at hs
      split at hs
      · obtain ⟨h1, h2⟩ := hset (Option.some.inj hs).symm (by simp)
        exact ⟨h1, .inl h2⟩
      · cases hs
    | insert s now d =>
      simp only at hs
      split at hs
      · rename_i cache it item wt hst
        split at hs
        · cases hs
        · rename_i t ht
          cases hs
          have hin : inserting v.streams s it item := ⟨cache, wt, hst⟩
          obtain ⟨f1, f2, f3⟩ := inserted_frame { v with tables := v.tables.insert it.table (t.step (if wt = true then .insertResume item now d
            else .insert item now d)).1 } s ⟨cache, .inserting it item wt⟩ it item (t.step (if wt = true then .insertResume item now d
            else .insert item now d)).2
          refine ⟨fun s' it' item' h => ?_, .inr ⟨s, it, item, t, _, now, hin, ht, ?_, ?_, ?_, f1, f2⟩⟩
          · rcases f3 s' it' item' h with h | ⟨rfl, rfl, rfl⟩
            · exact .inl h
            · exact .inl hin
          · intro i now' h
            refine ⟨d, ?_⟩
            cases wt with
            | true => cases h; exact .inr ⟨rfl, cache, hst⟩
            | false => cases h; exact .inl rfl
          · cases wt <;> rfl
          · cases wt <;> rfl
      · cases hs
    | confirm s ok =>
      simp only at hs
      split at hs
      · rename_i cache it hst
        split at hs
        · cases hs
          obtain ⟨f1, f2⟩ := release_frame { v with confirmed := v.confirmed ++ [(s, it.table, it.key)] } s ⟨cache, .confirming it⟩ it
          exact ⟨fun s' it' item' h => .inl (f2 s' it' item' h), .inl f1⟩
        · obtain ⟨h1, h2⟩ := hset (Option.some.inj hs).symm (by simp)
          exact ⟨h1, .inl h2⟩
      · cases hs
    | table name op => cases he

/-- The request that a sample stream serves. -/
def serving (m : AMap Nat SampStream) (q : Nat) (r : SampleReq) : Prop := ∃ x, m.get? q = some x ∧ current x.phase = some r

theorem serving_set {m : AMap Nat SampStream} {q q' : Nat} {x : SampStream} {r : SampleReq} (h : serving (m.insert q x) q' r) :
    serving m q' r ∨ (q' = q ∧ current x.phase = some r) := by
  obtain ⟨y, h, hc⟩ := h
  rw [AMap.get?_insert] at h
  split at h
  · cases h; exact .inr ⟨by assumption, hc⟩
  · exact .inl ⟨y, h, hc⟩

/-- `sampled` leaves the tables, goes on with the request, and notes a fatal error. -/
theorem sampled_frame (w : Wire) (v : SyncSampler) (q : Nat) (x : SampStream) (r : SampleReq) (d c : Int) (dl : Duration) (res : Res Table.Reply) :
    (SyncSampler.sampled w v q x r d c dl res).tables = v.tables ∧ (res = .died → (SyncSampler.sampled w v q x r d c dl res).dead = true) ∧
    ∀ q' r', serving (SyncSampler.sampled w v q x r d c dl res).streams q' r' → serving v.streams q' r' ∨ (q' = q ∧ r' = r) := by
  unfold SyncSampler.sampled
  split
  · refine ⟨rfl, (by simp), fun q' r' h => ?_⟩
    rcases serving_set h with h | ⟨h1, h⟩
    · exact .inl h
    · unfold SyncSampler.afterWrite at h
      simp only at h
      split at h <;> (cases h; exact .inr ⟨h1, rfl⟩)
  · refine ⟨rfl, (by simp), fun q' r' h => ?_⟩
    rcases serving_set h with h | ⟨h1, h⟩
    · exact .inl h
    · cases h; exact .inr ⟨h1, rfl⟩
  · exact ⟨rfl, fun _ => rfl, fun _ _ h => .inl h⟩
  · refine ⟨rfl, (by simp), fun q' r' h => ?_⟩
    rcases serving_set h with h | ⟨h1, h⟩
    · exact .inl h
    · cases h
  · exact ⟨rfl, fun _ => rfl, fun _ _ h => .inl h⟩

/-- A step of a sample stream. -/
theorem sample_step {w : Wire} {v v' : SyncSampler} {e : SyncSampler.Event} (he : ofSampleStream e = true) (hs : v.step w e = some v') :
    (∀ q r, serving v'.streams q r → serving v.streams q r ∨ e = .request q r) ∧
    (v'.tables = v.tables ∨ ∃ q r t op, serving v.streams q r ∧ v.tables.get? r.table = some t ∧ (∃ b ds, op = .sample b ds ∨ op = .sampleResume b ds) ∧
      v'.tables = v.tables.insert r.table (t.step op).1 ∧ ((t.step op).2 = .died → v'.dead = true)) := by
  have hset : ∀ {q : Nat} {x : SampStream}, v' = v.setStream q x → (∀ r, current x.phase = some r → serving v.streams q r ∨ e = .request q r) →
      (∀ q r, serving v'.streams q r → serving v.streams q r ∨ e = .request q r) ∧ v'.tables = v.tables := by
    intro q x hv hx
    subst hv
    refine ⟨fun q' r h => ?_, rfl⟩
    rcases serving_set h with h | ⟨rfl, h'⟩
    · exact .inl h
    · exact hx r h'
  have hsec : ∀ (q : Nat) (x : SampStream) (r : SampleReq) (d c : Int) (dl : Duration) (op : Op), serving v.streams q r →
      (∃ b ds, op = .sample b ds ∨ op = .sampleResume b ds) → SyncSampler.section_ w v q x r d c dl op = some v' →
      (∀ q r, serving v'.streams q r → serving v.streams q r ∨ e = .request q r) ∧
      (v'.tables = v.tables ∨ ∃ q r t op, serving v.streams q r ∧ v.tables.get? r.table = some t ∧
        (∃ b ds, op = .sample b ds ∨ op = .sampleResume b ds) ∧
        v'.tables = v.tables.insert r.table (t.step op).1 ∧ ((t.step op).2 = .died → v'.dead = true)) := by
    intro q x r d c dl op hq hop hse
    unfold SyncSampler.section_ at hse
    split at hse
    · cases hse
    · rename_i t ht
      cases hse
      obtain ⟨f1, f2, f3⟩ := sampled_frame w { v with tables := v.tables.insert r.table (t.step op).1 } q x r d c dl (t.step op).2
      refine ⟨fun q' r' h => ?_, .inr ⟨q, r, t, op, hq, ht, hop, f1, f2⟩⟩
      rcases f3 q' r' h with h | ⟨rfl, rfl⟩
      · exact .inl h
      · exact .inl hq
  unfold SyncSampler.step at hs
  split at hs
  · cases hs
  · cases e with
    | start q =>
      simp only at hs
      split at hs
      · cases hs
      · obtain ⟨h1, h2⟩ := hset (Option.some.inj hs).symm (by simp [current])
        exact ⟨h1, .inl h2⟩
    | request q r =>
      simp only at hs
      split at hs
      · obtain ⟨h1, h2⟩ := hset (Option.some.inj hs).symm (fun r' h => by
          unfold SyncSampler.take at h
          simp only at h
          split at h
          · split at h
            · cases h
            · cases h; exact .inr rfl
          · cases h)
        exact ⟨h1, .inl h2⟩
      · cases hs
    | eof q =>
      simp only at hs
      split at hs
      · obtain ⟨h1, h2⟩ := hset (Option.some.inj hs).symm (by simp [current])
        exact ⟨h1, .inl h2⟩
      · cases hs
    | cancel q =>
      simp only at hs
      split at hs
      · rename_i x hx
        obtain ⟨h1, h2⟩ := hset (Option.some.inj hs).symm (fun r h => .inl ⟨x, hx, h⟩)
        exact ⟨h1, .inl h2⟩
      · cases hs
    | next q =>
      simp only at hs
      split at hs
      · split at hs
        · obtain ⟨h1, h2⟩ := hset (Option.some.inj hs).symm (by simp [current])
          exact ⟨h1, .inl h2⟩
        · cases hs
      · cases hs
    | sample q now ds =>
      simp only at hs
      split at hs
      · rename_i hx
        split at hs
        · cases hs
        · exact hsec q _ _ _ _ _ _ ⟨_, hx, rfl⟩ ⟨_, _, .inl rfl⟩ hs
      · rename_i hx
        exact hsec q _ _ _ _ _ _ ⟨_, hx, rfl⟩ ⟨_, _, .inr rfl⟩ hs
      · cases hs
    | timeout q now =>
      simp only at hs
      split at hs
      · split at hs
        · obtain ⟨h1, h2⟩ := hset (Option.some.inj hs).symm (by simp [current])
          exact ⟨h1, .inl h2⟩
        · cases hs
      · cases hs
    | write q ok =>
      simp only at hs
      split at hs
      · rename_i tm cn r d c e es wr got hx
        split at hs
        · obtain ⟨h1, h2⟩ := hset (Option.some.inj hs).symm (fun r' h => by
            unfold SyncSampler.afterWrite at h
            simp only at h
            split at h <;> (cases h; exact .inl ⟨_, hx, rfl⟩))
          exact ⟨h1, .inl h2⟩
        · obtain ⟨h1, h2⟩ := hset (Option.some.inj hs).symm (by simp [current])
          exact ⟨h1, .inl h2⟩
      · cases hs
    | table name op => cases he

theorem findChunks_keys {cache : Cache} : ∀ {keys : List Key} {chs : List ChunkData}, chs.map some = keys.map cache.get? →
    (∀ k ch, cache.get? k = some ch → ch.key = k) → chs.map ChunkData.key = keys
  | [], [], _, _ => rfl
  | [], _ :: _, h, _ => by simp at h
  | _ :: _, [], h, _ => by simp at h
  | k :: keys, ch :: chs, h, hc => by
    simp only [List.map_cons, List.cons.injEq] at h ⊢
    exact ⟨hc k ch h.1.symm, findChunks_keys h.2 hc⟩

/-- What streams are doing comes from requests. -/
structure Busy (evs : List Event) (v : Service) : Prop where
  ins : ∀ s it item, inserting v.inserts s it item → ∃ r ∈ insertRequests s evs, r.item = some it ∧ MadeOf (insertRequests s evs) it item
  wait : ∀ s cache it item, v.inserts.get? s = some ⟨cache, .inserting it item true⟩ → Table.itemValid item = true
  cache : ∀ s x, v.inserts.get? s = some x → ∀ k ch, x.cache.get? k = some ch → ch.key = k ∧ ∃ r ∈ insertRequests s evs, ch ∈ r.chunks
  samp : ∀ q r, serving v.samples q r → r ∈ sampleRequests q evs

/-- The invariant: every table has done what was asked of it. -/
structure Life (tables : AMap String Table) (evs : List Event) (v : Service) : Prop where
  busy : Busy evs v
  names : ∀ n, tables.get? n = none → v.tables.get? n = none
  lives : v.dead = false → ∀ n t, tables.get? n = some t → ∃ ops t', t.run ops = some t' ∧ v.tables.get? n = some t' ∧ OpsOf n evs ops

theorem run_append_one : ∀ (ops : List Op) (t t' : Table) (op : Op), t.run ops = some t' → (t'.step op).2 ≠ .died → t.run (ops ++ [op]) = some (t'.step op).1
  | [], t, t', op, h, hd => by
    cases h
    simp only [List.nil_append, Table.run]
  | a :: ops, t, t', op, h, hd => by
    simp only [List.cons_append, Table.run] at h ⊢
    split at h
    · cases h
    · exact run_append_one ops _ t' op h hd

theorem calls_snoc (n : String) (evs : List Event) (e : Event) : calls n (evs ++ [e]) = calls n evs ++ calls n [e] := by
  simp [calls, List.filterMap_append]

theorem MadeOf.mono {s : Nat} {evs : List Event} {e : Event} {it : InsertItem} {i : Item} (h : MadeOf (insertRequests s evs) it i) :
    MadeOf (insertRequests s (evs ++ [e])) it i := by
  obtain ⟨chunks, h1, h2, h3⟩ := h.made
  refine ⟨chunks, h1, h2, fun ch hc => ?_⟩
  obtain ⟨r, hr, g⟩ := h3 ch hc
  exact ⟨r, by rw [insertRequests_snoc]; exact List.mem_append_left _ hr, g⟩

/-- More requests. -/
theorem OpsOf.mono {n : String} {evs : List Event} {ops : List Op} {e : Event} (h : OpsOf n evs ops) (hc : Service.calls n [e] = []) : OpsOf n (evs ++ [e]) ops := by
  refine ⟨by rw [calls_snoc, hc, List.append_nil]; exact h.calls, fun op ho i now hi => ?_, h.inserts, fun op ho hc hi => ?_⟩
  · obtain ⟨s, r, hr, it, g1, g2, g3⟩ := h.items op ho i now hi
    exact ⟨s, r, by rw [insertRequests_snoc]; exact List.mem_append_left _ hr, it, g1, g2, g3.mono⟩
  · obtain ⟨g1, q, r, hr, g⟩ := h.samples op ho hc hi
    exact ⟨g1, q, r, by rw [sampleRequests_snoc]; exact List.mem_append_left _ hr, g⟩

/-- One more critical section. -/
theorem OpsOf.snoc {n : String} {evs : List Event} {ops : List Op} {e : Event} {op : Op} (h : OpsOf n evs ops)
    (hc : Service.calls n [e] = [op].filter isCall)
    (hi : ∀ i now, Op.item op = some (i, now) → ∃ s, ∃ r ∈ insertRequests s (evs ++ [e]), ∃ it, r.item = some it ∧ it.table = n ∧ MadeOf (insertRequests s (evs ++ [e])) it i)
    (hw : ∀ i now, Op.item op = some (i, now) → ∃ d, op = .insert i now d ∨ op = .insertResume i now d ∧ Table.itemValid i = true)
    (hq : isCall op = false → Op.item op = none → (∃ b ds, op = .sample b ds ∨ op = .sampleResume b ds) ∧
      ∃ q, ∃ r ∈ sampleRequests q (evs ++ [e]), r.table = n) : OpsOf n (evs ++ [e]) (ops ++ [op]) := by
  refine ⟨by rw [calls_snoc, hc, List.filter_append, h.calls], fun o ho i now hi' => ?_, fun o ho i now hi' => ?_, fun o ho hc' hi' => ?_⟩
  · rcases List.mem_append.mp ho with ho | ho
    · obtain ⟨s, r, hr, it, g1, g2, g3⟩ := h.items o ho i now hi'
      exact ⟨s, r, by rw [insertRequests_snoc]; exact List.mem_append_left _ hr, it, g1, g2, g3.mono⟩
    · rw [List.mem_singleton] at ho; subst ho; exact hi i now hi'
  · rcases List.mem_append.mp ho with ho | ho
    · exact h.inserts o ho i now hi'
    · rw [List.mem_singleton] at ho; subst ho; exact hw i now hi'
  · rcases List.mem_append.mp ho with ho | ho
    · obtain ⟨g1, q, r, hr, g⟩ := h.samples o ho hc' hi'
      exact ⟨g1, q, r, by rw [sampleRequests_snoc]; exact List.mem_append_left _ hr, g⟩
    · rw [List.mem_singleton] at ho; subst ho; exact hq hc' hi'

/-- The streams after a step. -/
theorem Busy.step {w : Wire} {evs : List Event} {v v' : Service} {e : Event} (h : Busy evs v) (hs : v.step w e = some v') : Busy (evs ++ [e]) v' := by
  have hI : ∀ s it item, inserting v.inserts s it item → ∃ r ∈ insertRequests s (evs ++ [e]), r.item = some it ∧ MadeOf (insertRequests s (evs ++ [e])) it item :=
    fun s it item g => by
      obtain ⟨r, hr, g, g'⟩ := h.ins s it item g
      exact ⟨r, by rw [insertRequests_snoc]; exact List.mem_append_left _ hr, g, g'.mono⟩
  have hC : ∀ s x, v.inserts.get? s = some x → ∀ k ch, x.cache.get? k = some ch → ch.key = k ∧ ∃ r ∈ insertRequests s (evs ++ [e]), ch ∈ r.chunks :=
    fun s x g k ch hk => by
      obtain ⟨g1, r, hr, g2⟩ := h.cache s x g k ch hk
      exact ⟨g1, r, by rw [insertRequests_snoc]; exact List.mem_append_left _ hr, g2⟩
  have hS : ∀ q r, serving v.samples q r → r ∈ sampleRequests q (evs ++ [e]) := fun q r g => by
    rw [sampleRequests_snoc]; exact List.mem_append_left _ (h.samp q r g)
  cases e with
  | insert e =>
    simp only [Service.step] at hs
    split at hs
    · rename_i he
      split at hs
      · cases hs
      · rename_i x hx
        cases hs
        have hnew : ∀ s r, e = .request s r → r ∈ insertRequests s (evs ++ [.insert e]) := fun s r g => by
          subst g
          rw [insertRequests_snoc]; exact List.mem_append_right _ (by simp [insertRequests, SyncServer.requests])
        refine ⟨fun s it item g => ?_, fun s cache it item g => ?_, fun s x' g k ch hk => ?_, hS⟩
        · rcases (insert_step he hx).1 s it item g with g | ⟨r, hr, g, chunks, cache, ph, g1, g2, g3⟩
          · exact hI s it item g
          · have hsave : ∀ k ch, (saveChunks .sync cache r.chunks).get? k = some ch → ch.key = k ∧ ∃ r ∈ insertRequests s (evs ++ [.insert e]), ch ∈ r.chunks := by
              intro k ch hk
              rcases saveChunks_get .sync r.chunks cache k ch hk with q | ⟨q1, q2⟩
              · exact hC s _ g2 k ch q
              · exact ⟨q2, r, hnew s r hr, q1⟩
            refine ⟨r, hnew s r hr, g, chunks, g1, ?_, fun ch hc => ?_⟩
            · have := findChunks_get g3
              apply findChunks_keys this
              exact fun k ch hk => (hsave k ch hk).1
            · have hg : some ch ∈ chunks.map some := List.mem_map_of_mem hc
              rw [findChunks_get g3] at hg
              obtain ⟨k, _, hk⟩ := List.mem_map.mp hg
              exact (hsave k ch hk).2
        · rcases wait_step he hx g with ⟨c, q⟩ | q
          · exact h.wait s c it item q
          · exact q
        · rcases cache_step he hx g hk with ⟨x0, q1, q2⟩ | ⟨r, q1, q2, q3⟩
          · exact hC s x0 q1 k ch q2
          · exact ⟨q3, r, hnew s r q1, q2⟩
    · cases hs
  | sample e =>
    simp only [Service.step] at hs
    split at hs
    · rename_i he
      split at hs
      · cases hs
      · rename_i x hx
        cases hs
        refine ⟨hI, h.wait, hC, fun q r g => ?_⟩
        rcases (sample_step he hx).1 q r g with g | rfl
        · exact hS q r g
        · rw [sampleRequests_snoc]; exact List.mem_append_right _ (by simp [sampleRequests, SyncSampler.requests])
    · cases hs
  | unary u =>
    simp only [Service.step] at hs
    split at hs
    · cases hs
    · cases hs
      unfold Service.unary
      split <;> exact ⟨hI, h.wait, hC, hS⟩

/-- The tables after a step: at most one has done something. -/
theorem tables_step {w : Wire} {evs : List Event} {v v' : Service} {e : Event} (h : Busy evs v) (hs : v.step w e = some v') :
    v.dead = false ∧ ((v'.tables = v.tables ∧ ∀ n, (v.tables.get? n).isSome → calls n [e] = []) ∨
    ∃ n t op, v.tables.get? n = some t ∧ v'.tables = v.tables.insert n (t.step op).1 ∧ ((t.step op).2 = .died → v'.dead = true) ∧
      calls n [e] = [op].filter isCall ∧ (∀ n', n' ≠ n → calls n' [e] = []) ∧
      (∀ i now, Op.item op = some (i, now) → ∃ s, ∃ r ∈ insertRequests s evs, ∃ it, r.item = some it ∧ it.table = n ∧ MadeOf (insertRequests s evs) it i) ∧
      (∀ i now, Op.item op = some (i, now) → ∃ d, op = .insert i now d ∨ op = .insertResume i now d ∧ Table.itemValid i = true) ∧
      (isCall op = false → Op.item op = none → (∃ b ds, op = .sample b ds ∨ op = .sampleResume b ds) ∧
        ∃ q, ∃ r ∈ sampleRequests q evs, r.table = n)) := by
  cases e with
  | insert e =>
    simp only [Service.step] at hs
    split at hs
    · rename_i he
      split at hs
      · cases hs
      · rename_i x hx
        cases hs
        have hd : v.dead = false := by
          unfold SyncServer.step at hx
          split at hx
          · cases hx
          · rename_i h; simpa [asServer] using h
        refine ⟨hd, ?_⟩
        rcases (insert_step he hx).2 with g | ⟨s, it, item, t, op, now, g1, g2, g2', g3, g4, g5, g6⟩
        · exact .inl ⟨g, fun n _ => rfl⟩
        · refine .inr ⟨it.table, t, op, g2, g5, g6, by simp [g4, calls], fun n' _ => rfl, fun i now' hi => ?_, fun i now' hi => ?_, fun _ hi => by rw [g3] at hi; cases hi⟩
          rotate_left
          · obtain ⟨d, q | ⟨q, c, q'⟩⟩ := g2' i now' hi
            · exact ⟨d, .inl q⟩
            · exact ⟨d, .inr ⟨q, h.wait s c it i q'⟩⟩
          rw [g3] at hi
          cases hi
          obtain ⟨r, hr, q1, q2⟩ := h.ins s it item g1
          exact ⟨s, r, hr, it, q1, rfl, q2⟩
    · cases hs
  | sample e =>
    simp only [Service.step] at hs
    split at hs
    · rename_i he
      split at hs
      · cases hs
      · rename_i x hx
        cases hs
        have hd : v.dead = false := by
          unfold SyncSampler.step at hx
          split at hx
          · cases hx
          · rename_i h; simpa [asSampler] using h
        refine ⟨hd, ?_⟩
        rcases (sample_step he hx).2 with g | ⟨q, r, t, op, g1, g2, g3, g4, g5⟩
        · exact .inl ⟨g, fun n _ => rfl⟩
        · have hno : Op.item op = none ∧ isCall op = false := by
            obtain ⟨b, ds, rfl | rfl⟩ := g3 <;> exact ⟨rfl, rfl⟩
          refine .inr ⟨r.table, t, op, g2, g4, g5, by simp [hno.2, calls], fun n' _ => rfl, fun i now' hi => ?_,
            fun i now' hi => (by rw [hno.1] at hi; cases hi), fun _ _ => ⟨g3, q, r, h.samp q r g1, rfl⟩⟩
          rw [hno.1] at hi
          cases hi
    · cases hs
  | unary u =>
    simp only [Service.step] at hs
    split at hs
    · cases hs
    · rename_i hd
      cases hs
      refine ⟨by simpa using hd, ?_⟩
      unfold Service.unary
      split
      · rename_i hn
        refine .inl ⟨rfl, fun n h => ?_⟩
        have : u.table ≠ n := fun g => by rw [← g, hn] at h; cases h
        simp [calls, this]
      · rename_i t ht
        refine .inr ⟨u.table, t, u.op, ht, rfl, fun g => decide_eq_true g, ?_, fun n' hn => ?_, ?_, ?_, ?_⟩
        · cases u <;> simp [calls, Unary.op, Unary.table] <;> rfl
        · simp [calls, Ne.symm hn]
        · cases u <;> exact fun _ _ g => by cases g
        · cases u <;> exact fun _ _ g => by cases g
        · cases u <;> exact fun g => by cases g

theorem Life.init (tables : AMap String Table) : Life tables [] (init tables) :=
  ⟨⟨fun s it item h => (by obtain ⟨_, _, h⟩ := h; cases h), fun s c it item h => (by cases h), fun s x h => (by cases h), fun q r h => (by obtain ⟨_, h, _⟩ := h; cases h)⟩, fun _ h => h,
    fun _ n t ht => ⟨[], t, rfl, ht, ⟨rfl, fun _ h => (by cases h), fun _ h => (by cases h), fun _ h => (by cases h)⟩⟩⟩

theorem Life.step {w : Wire} {tables : AMap String Table} {evs : List Event} {v v' : Service} {e : Event} (h : Life tables evs v)
    (hs : v.step w e = some v') : Life tables (evs ++ [e]) v' := by
  obtain ⟨hd, ht⟩ := tables_step h.busy hs
  refine ⟨h.busy.step hs, fun n hn => ?_, fun hd' n t hn => ?_⟩
  · rcases ht with ⟨g, _⟩ | ⟨m, t, op, g1, g2, _⟩
    · rw [g]; exact h.names n hn
    · rw [g2, AMap.get?_insert]
      split
      · rename_i he; rw [← he, h.names n hn] at g1; cases g1
      · exact h.names n hn
  · obtain ⟨ops, t', r1, r2, r3⟩ := h.lives hd n t hn
    rcases ht with ⟨g, gc⟩ | ⟨m, t0, op, g1, g2, g3, g4, g5, g6, gw, g7⟩
    · exact ⟨ops, t', r1, by rw [g]; exact r2, r3.mono (gc n (by rw [r2]; rfl))⟩
    · by_cases he : n = m
      · subst he
        rw [r2] at g1
        cases g1
        have hne : (t'.step op).2 ≠ .died := fun g => by rw [g3 g] at hd'; cases hd'
        refine ⟨ops ++ [op], _, run_append_one ops t t' op r1 hne, by rw [g2, AMap.get?_insert, if_pos rfl], r3.snoc g4 (fun i now hi => ?_) gw (fun hc hi => ?_)⟩
        · obtain ⟨s, r, hr, it, q1, q2, q3⟩ := g6 i now hi
          exact ⟨s, r, by rw [insertRequests_snoc]; exact List.mem_append_left _ hr, it, q1, q2, q3.mono⟩
        · obtain ⟨q1, q, r, hr, q2⟩ := g7 hc hi
          exact ⟨q1, q, r, by rw [sampleRequests_snoc]; exact List.mem_append_left _ hr, q2⟩
      · exact ⟨ops, t', r1, by rw [g2, AMap.get?_insert, if_neg he]; exact r2, r3.mono (g5 n he)⟩

theorem life_run {w : Wire} {tables : AMap String Table} {evs : List Event} {v : Service} (h : (Service.init tables).run w evs = some v) :
    Life tables evs v := by
  have key : ∀ (post pre : List Event) (x : Service), Life tables pre x → x.run w post = some v → Life tables (pre ++ post) v := by
    intro post
    induction post with
    | nil => intro pre x hx hr; cases hr; simpa using hx
    | cons e post ih =>
      intro pre x hx hr
      simp only [run] at hr
      split at hr
      · cases hr
      · rename_i x' hs
        have := ih (pre ++ [e]) x' (hx.step hs) hr
        simpa using this
  exact key evs [] _ (Life.init tables) h

theorem Admitted.prefix {cfgs : AMap String Config} {a b : List Event} (h : Admitted cfgs (a ++ b)) : Admitted cfgs a := by
  refine ⟨fun s r hr => h.inserts s r ?_, fun n us ds hm => h.updates n us ds (List.mem_append_left _ hm)⟩
  simp only [insertRequests, SyncServer.requests, List.filterMap_append]
  exact List.mem_append_left _ hr

end Service
end Verif
