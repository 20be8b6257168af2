import Verif.Model.InsertStream
import Verif.Props.C30_C31_Trajectories
import Verif.Proofs.TableCore
import Verif.Spec.TrajWriter
namespace Verif

theorem saveChunks_keys (srv : Server) : ∀ (chs : List ChunkData) (cache : Cache) (k : Key),
    k ∈ (saveChunks srv cache chs).keys ↔ k ∈ cache.keys ∨ k ∈ chs.map ChunkData.key
  | [], cache, k => by cases srv <;> simp [saveChunks]
  | c :: chs, cache, k => by
    cases srv with
    | sync =>
      have ih := saveChunks_keys .sync chs (cache.insert c.key c) k
      simp only [saveChunks, List.foldl_cons] at ih ⊢
      rw [ih, AMap.keys_insert]
      simp only [List.mem_cons, List.mem_filter, decide_eq_true_eq, List.map_cons]
      by_cases hk : k = c.key <;> simp [hk]
    | async =>
      have ih := saveChunks_keys .async chs (if cache.contains c.key then cache else cache.insert c.key c) k
      simp only [saveChunks, List.foldl_cons] at ih ⊢
      rw [ih]
      simp only [List.map_cons, List.mem_cons]
      split
      · rename_i hc
        rw [AMap.contains_iff] at hc
        by_cases hk : k = c.key
        · subst hk; simp [hc]
        · simp [hk]
      · rw [AMap.keys_insert]
        simp only [List.mem_cons, List.mem_filter, decide_eq_true_eq]
        by_cases hk : k = c.key <;> simp [hk]

theorem saveChunks_get (srv : Server) : ∀ (chs : List ChunkData) (cache : Cache) (k : Key) (ch : ChunkData),
    (saveChunks srv cache chs).get? k = some ch → cache.get? k = some ch ∨ (ch ∈ chs ∧ ch.key = k)
  | [], cache, k, ch, h => by cases srv <;> exact .inl h
  | c :: chs, cache, k, ch, h => by
    have one : ∀ cache', (cache' = cache ∨ cache' = cache.insert c.key c) → cache'.get? k = some ch →
        cache.get? k = some ch ∨ (ch ∈ c :: chs ∧ ch.key = k) := by
      intro cache' hc hg
      rcases hc with rfl | rfl
      · exact .inl hg
      · rw [AMap.get?_insert] at hg
        split at hg
        · rename_i hk
          cases hg
          exact .inr ⟨by simp, hk.symm⟩
        · exact .inl hg
    have two : ∀ cache', (cache' = cache ∨ cache' = cache.insert c.key c) → (saveChunks srv cache' chs).get? k = some ch →
        cache.get? k = some ch ∨ (ch ∈ c :: chs ∧ ch.key = k) := by
      intro cache' hc hg
      rcases saveChunks_get srv chs cache' k ch hg with h1 | ⟨h1, h2⟩
      · exact one cache' hc h1
      · exact .inr ⟨List.mem_cons_of_mem _ h1, h2⟩
    cases srv with
    | sync => exact two _ (.inr rfl) h
    | async =>
      simp only [saveChunks, List.foldl_cons] at h
      refine two (if cache.contains c.key then cache else cache.insert c.key c) ?_ h
      split
      · exact .inl rfl
      · exact .inr rfl

theorem AMap.lookup_filter_keys {α : Type} (l : List (Key × α)) (ks : List Key) (k : Key) :
    (l.filter fun e => ks.contains e.1).lookup k = if k ∈ ks then l.lookup k else none := by
  induction l with
  | nil => simp
  | cons e t ih =>
    obtain ⟨a, b⟩ := e
    by_cases ha : a ∈ ks
    · rw [List.filter_cons_of_pos (by simpa using ha)]
      simp only [List.lookup_cons]
      by_cases hk : k = a
      · subst hk; simp [ha]
      · simp only [beq_eq_false_iff_ne.mpr hk, ih]
    · rw [List.filter_cons_of_neg (by simpa using ha), ih]
      simp only [List.lookup_cons]
      by_cases hk : k = a
      · subst hk; simp [ha]
      · simp only [beq_eq_false_iff_ne.mpr hk]

theorem AMap.get?_keep {α : Type} (m : AMap Key α) (ks : List Key) (k : Key) : (m.keep ks).get? k = if k ∈ ks then m.get? k else none :=
  AMap.lookup_filter_keys _ _ _

theorem AMap.mem_keys_keep {α : Type} (m : AMap Key α) (ks : List Key) (k : Key) : k ∈ (m.keep ks).keys ↔ k ∈ ks ∧ k ∈ m.keys := by
  rw [AMap.mem_keys_iff, AMap.get?_keep, AMap.mem_keys_iff]
  split <;> simp_all

/-- If the keys to keep are there, exactly they are kept. -/
theorem releaseChunks_ok (srv : Server) {cache : Cache} {keep : List Key} (hn : keep.Nodup) (h : ∀ k ∈ keep, k ∈ cache.keys) :
    releaseChunks srv cache keep = some (cache.keep keep) := by
  have hmem : ∀ k, k ∈ (cache.keep keep).keys ↔ k ∈ keep := fun k => by
    rw [AMap.mem_keys_keep]
    exact ⟨fun h => h.1, fun hk => ⟨hk, h k hk⟩⟩
  have h1 : (cache.keep keep).size = keep.length := by
    rw [← AMap.length_keys]
    exact ((List.perm_ext_iff_of_nodup (AMap.keys_nodup _) hn).mpr hmem).length_eq
  have h2 : keep.eraseDups.length = keep.length :=
    ((List.perm_ext_iff_of_nodup (nodup_eraseDups _) hn).mpr fun k => List.mem_eraseDups).length_eq
  unfold releaseChunks
  cases srv <;> simp [h1, h2, Server.expected]

/-- If the check succeeds, exactly the keys to keep are there. -/
theorem releaseChunks_keys {srv : Server} {cache cache' : Cache} {keep : List Key} (h : releaseChunks srv cache keep = some cache') (k : Key) :
    k ∈ cache'.keys ↔ k ∈ keep := by
  unfold releaseChunks at h
  by_cases hs : (cache.keep keep).size = srv.expected keep
  · rw [if_pos hs, Option.some.injEq] at h
    subst h
    have hsub : (cache.keep keep).keys ⊆ keep.eraseDups := fun x hx => by
      rw [List.mem_eraseDups]
      exact ((AMap.mem_keys_keep _ _ _).mp hx).1
    have hle : keep.eraseDups.length ≤ (cache.keep keep).keys.length := by
      rw [AMap.length_keys, hs]
      cases srv with
      | sync => exact Nat.le_refl _
      | async => exact (nodup_eraseDups keep).length_le_of_subset fun x hx => List.mem_eraseDups.mp hx
    constructor
    · intro hk
      exact ((AMap.mem_keys_keep _ _ _).mp hk).1
    · intro hk
      refine Classical.byContradiction fun hn => ?_
      have hsub' : k :: (cache.keep keep).keys ⊆ keep.eraseDups := by
        intro x hx
        rcases List.mem_cons.mp hx with rfl | hx
        · rw [List.mem_eraseDups]; exact hk
        · exact hsub hx
      have := (List.nodup_cons.mpr ⟨hn, AMap.keys_nodup (cache.keep keep)⟩).length_le_of_subset hsub'
      simp only [List.length_cons] at this
      omega
  · rw [if_neg hs] at h
    cases h

theorem findChunks_ok {cache : Cache} : ∀ {keys : List Key}, (∀ k ∈ keys, k ∈ cache.keys) → ∃ chs, findChunks cache keys = some chs
  | [], _ => ⟨[], rfl⟩
  | k :: keys, h => by
    obtain ⟨chs, h1⟩ := findChunks_ok (keys := keys) fun x hx => h x (List.mem_cons_of_mem _ hx)
    obtain ⟨ch, h2⟩ := Option.isSome_iff_exists.mp ((AMap.mem_keys_iff _ _).mp (h k List.mem_cons_self))
    refine ⟨ch :: chs, ?_⟩
    simp only [findChunks, List.mapM_cons, h2] at h1 ⊢
    simp [h1]

theorem findChunks_get {cache : Cache} : ∀ {keys : List Key} {chs : List ChunkData}, findChunks cache keys = some chs →
    chs.map some = keys.map cache.get?
  | [], chs, h => by simp [findChunks] at h; subst h; rfl
  | k :: keys, chs, h => by
    simp only [findChunks, List.mapM_cons] at h
    cases hk : cache.get? k with
    | none => simp [hk] at h
    | some ch =>
      cases ht : keys.mapM cache.get? with
      | none => simp [hk, ht] at h
      | some rest =>
        simp [hk, ht] at h
        subst h
        have := findChunks_get (cache := cache) (keys := keys) (chs := rest) ht
        simp [this, hk]

theorem serveAll_append (srv : Server) : ∀ (a b : List Msg) (cache : Cache), serveAll srv cache (a ++ b) =
    match serveAll srv cache a with
    | .err e => .err e
    | .died => .died
    | .ok (c1, i1) =>
      match serveAll srv c1 b with
      | .err e => .err e
      | .died => .died
      | .ok (c2, i2) => .ok (c2, i1 ++ i2)
  | [], b, cache => by simp only [List.nil_append, serveAll]; cases serveAll srv cache b <;> rfl
  | m :: a, b, cache => by
    simp only [List.cons_append, serveAll]
    cases serve srv cache m with
    | err e => rfl
    | died => rfl
    | ok p =>
      simp only [serveAll_append srv a b p.1]
      cases serveAll srv p.1 a with
      | err e => rfl
      | died => rfl
      | ok q =>
        simp only
        cases serveAll srv q.1 b with
        | err e => rfl
        | died => rfl
        | ok z => simp

theorem serveAll_snoc {srv : Server} {s : List Msg} {cache : Cache} {ins : List (WItem × List ChunkData)} {m : Msg}
    (h : serveAll srv .empty s = .ok (cache, ins)) {cache' : Cache} {i : Option (WItem × List ChunkData)}
    (hm : serve srv cache m = .ok (cache', i)) : serveAll srv .empty (s ++ [m]) = .ok (cache', ins ++ i.toList) := by
  rw [serveAll_append, h]
  simp [serveAll, hm]

theorem serveAll_split {srv : Server} {a b : List Msg} {cache0 cache : Cache} {ins : List (WItem × List ChunkData)}
    (h : serveAll srv cache0 (a ++ b) = .ok (cache, ins)) :
    ∃ c1 i1 i2, serveAll srv cache0 a = .ok (c1, i1) ∧ serveAll srv c1 b = .ok (cache, i2) ∧ ins = i1 ++ i2 := by
  rw [serveAll_append] at h
  cases h1 : serveAll srv cache0 a with
  | err e => simp [h1] at h
  | died => simp [h1] at h
  | ok p =>
    simp only [h1] at h
    cases h2 : serveAll srv p.1 b with
    | err e => simp [h2] at h
    | died => simp [h2] at h
    | ok q =>
      simp only [h2, Res.ok.injEq, Prod.mk.injEq] at h
      exact ⟨p.1, p.2, q.2, rfl, by rw [h2, ← h.1], h.2.symm⟩

/-- What a successful request with an item does. -/
theorem serve_item {srv : Server} {cache cache' : Cache} {m : Msg} {i : Option (WItem × List ChunkData)}
    (h : serve srv cache m = .ok (cache', i)) {it : WItem} {keep : List Key} (hm : m.item = some (it, keep)) :
    ∃ chs, i = some (it, chs) ∧ findChunks (saveChunks srv cache m.chunks) (getChunkKeys it.traj) = some chs ∧ ∀ k, k ∈ cache'.keys ↔ k ∈ keep := by
  unfold serve at h
  simp only [hm, reduceCtorEq, and_false, if_false] at h
  cases hf : findChunks (saveChunks srv cache m.chunks) (getChunkKeys it.traj) with
  | none => simp [hf] at h
  | some chs =>
    simp only [hf] at h
    cases hr : releaseChunks srv (saveChunks srv cache m.chunks) keep with
    | none => simp [hr] at h
    | some c2 =>
      simp only [hr, Res.ok.injEq, Prod.mk.injEq] at h
      obtain ⟨rfl, rfl⟩ := h
      exact ⟨chs, rfl, rfl, releaseChunks_keys hr⟩

theorem serve_none {srv : Server} {cache cache' : Cache} {m : Msg} {i : Option (WItem × List ChunkData)}
    (h : serve srv cache m = .ok (cache', i)) (hm : m.item = none) : i = none := by
  unfold serve at h
  split at h
  · cases h
  · simp only [hm, Res.ok.injEq, Prod.mk.injEq] at h
    exact h.2.symm

theorem itemsOf_append (a b : List Msg) : itemsOf (a ++ b) = itemsOf a ++ itemsOf b := by simp [itemsOf]

/-- The items given to tables are the items of the stream. -/
theorem serveAll_items {srv : Server} : ∀ {s : List Msg} {cache0 cache : Cache} {ins : List (WItem × List ChunkData)},
    serveAll srv cache0 s = .ok (cache, ins) → ins.map Prod.fst = itemsOf s
  | [], _, _, _, h => by simp [serveAll] at h; simp [h.2, itemsOf]
  | m :: s, cache0, cache, ins, h => by
    simp only [serveAll] at h
    cases h1 : serve srv cache0 m with
    | err e => simp [h1] at h
    | died => simp [h1] at h
    | ok p =>
      simp only [h1] at h
      cases h2 : serveAll srv p.1 s with
      | err e => simp [h2] at h
      | died => simp [h2] at h
      | ok q =>
        simp only [h2, Res.ok.injEq, Prod.mk.injEq] at h
        rw [← h.2, List.map_append, serveAll_items h2]
        have he : (p.2.toList.map Prod.fst : List WItem) = itemsOf [m] := by
          cases hm : m.item with
          | none => rw [serve_none (i := p.2) (cache' := p.1) h1 hm]; simp [itemsOf, hm]
          | some x =>
            obtain ⟨it, keep⟩ := x
            obtain ⟨chs, hi, _⟩ := serve_item (i := p.2) (cache' := p.1) h1 hm
            simp [itemsOf, hm, hi]
        rw [he, ← itemsOf_append]
        rfl

end Verif
