import Verif.Proofs.TableGrow
import Verif.Proofs.InsertCache
import Verif.Proofs.TableReach
import Verif.Proofs.Worker
/-
Invariants of the insert streams of the synchronous server.
-/
namespace Verif
open Table (Op)

/-- Weight of an optional entry. -/
def AMap.weight {κ α : Type} (p : κ × α → Bool) (k : κ) : Option α → Nat
  | some o => if p (k, o) then 1 else 0
  | none => 0

theorem AMap.countP_filter_ne {κ α : Type} [DecidableEq κ] (p : κ × α → Bool) (k : κ) : ∀ (l : List (κ × α)), (l.map Prod.fst).Nodup →
    (l.filter (fun e => e.1 ≠ k)).countP p + AMap.weight p k (l.lookup k) = l.countP p
  | [], _ => rfl
  | (a, b) :: l, hn => by
    simp only [List.map_cons, List.nodup_cons] at hn
    have ih := AMap.countP_filter_ne p k l hn.2
    by_cases h : a = k
    · subst h
      have hl : l.lookup a = none := by
        rw [List.lookup_eq_none_iff]
        intro e he
        rw [bne_iff_ne]
        rintro rfl
        exact hn.1 (List.mem_map_of_mem he)
      rw [hl] at ih
      simp only [AMap.weight, Nat.add_zero] at ih
      rw [List.filter_cons_of_neg (by simp), List.lookup_cons_self, ih, List.countP_cons]
      rfl
    · rw [List.filter_cons_of_pos (by simpa using h), List.lookup_cons, beq_eq_false_iff_ne.mpr (fun e => h e.symm), List.countP_cons, List.countP_cons, ← ih]
      simp only
      omega

theorem AMap.countP_insert {κ α : Type} [DecidableEq κ] (m : AMap κ α) (p : κ × α → Bool) (k : κ) (v : α) :
    (m.insert k v).entries.countP p + AMap.weight p k (m.get? k) = m.entries.countP p + AMap.weight p k (some v) := by
  have h := AMap.countP_filter_ne p k m.entries m.nodup
  simp only [AMap.insert, AMap.erase, AMap.get?, List.countP_cons] at h ⊢
  simp only [AMap.weight] at h ⊢
  omega

theorem releaseChunks_sync {cache : Cache} {keep : List Key} :
    (∀ k ∈ keep, k ∈ cache.keys) ↔ releaseChunks .sync cache keep = some (cache.keep keep) := by
  constructor
  · intro h
    unfold releaseChunks
    rw [if_pos]
    show (cache.keep keep).entries.length = keep.eraseDups.length
    rw [← List.length_map (f := Prod.fst)]
    refine length_eq_of_nodup_of_mem (cache.keep keep).nodup (nodup_eraseDups _) fun k => ?_
    show k ∈ (cache.keep keep).keys ↔ _
    rw [AMap.mem_keys_keep, List.mem_eraseDups]
    exact ⟨fun g => g.1, fun g => ⟨g, h k g⟩⟩
  · intro h k hk
    have := (releaseChunks_keys h k).mpr hk
    rw [AMap.mem_keys_keep] at this
    exact this.2

theorem releaseChunks_eq {srv : Server} {cache c : Cache} {keep : List Key} (h : releaseChunks srv cache keep = some c) : c = cache.keep keep := by
  unfold releaseChunks at h
  split at h <;> simp_all

theorem releaseChunks_sync_none {cache : Cache} {keep : List Key} :
    releaseChunks .sync cache keep = none ↔ ∃ k ∈ keep, k ∉ cache.keys := by
  constructor
  · intro h
    apply Classical.byContradiction
    intro hc
    have : ∀ k ∈ keep, k ∈ cache.keys := fun k hk => Classical.byContradiction fun g => hc ⟨k, hk, g⟩
    rw [releaseChunks_sync.mp this] at h
    cases h
  · rintro ⟨k, h1, h2⟩
    cases h : releaseChunks .sync cache keep with
    | none => rfl
    | some c => exact absurd (releaseChunks_sync.mpr (releaseChunks_eq h ▸ h) k h1) h2

theorem findChunks_none {cache : Cache} {keys : List Key} (h : findChunks cache keys = none) : ∃ k ∈ keys, k ∉ cache.keys := by
  apply Classical.byContradiction
  intro hc
  obtain ⟨chs, h'⟩ := findChunks_ok (cache := cache) (keys := keys) fun k hk => Classical.byContradiction fun g => hc ⟨k, hk, g⟩
  rw [h] at h'; cases h'

theorem findChunks_some {cache : Cache} {keys : List Key} {chs : List ChunkData} (h : findChunks cache keys = some chs) : ∀ k ∈ keys, k ∈ cache.keys := by
  intro k hk
  have h1 : cache.get? k ∈ chs.map some := by rw [findChunks_get h]; exact List.mem_map_of_mem hk
  obtain ⟨x, _, hx⟩ := List.mem_map.mp h1
  rw [AMap.mem_keys_iff, ← hx]
  rfl

theorem kept_snoc (l : List InsertReq) (r : InsertReq) : kept (l ++ [r]) = keptStep (kept l) r := by simp [kept]

theorem newTables_get (cfgs : AMap String Config) (name : String) : (newTables cfgs).get? name = (cfgs.get? name).map Config.init := by
  obtain ⟨l, hn⟩ := cfgs
  simp only [newTables, AMap.get?]
  clear hn
  induction l with
  | nil => rfl
  | cons e l ih =>
    obtain ⟨a, b⟩ := e
    simp only [List.map_cons, List.lookup_cons]
    cases name == a
    · exact ih
    · rfl

namespace SyncServer

theorem run_ind {P : List Event → SyncServer → Prop} (hstep : ∀ pre v e v', P pre v → v.step e = some v' → P (pre ++ [e]) v') :
    ∀ (post pre : List Event) (v v' : SyncServer), P pre v → v.run post = some v' → P (pre ++ post) v'
  | [], pre, v, v', hp, h => by simp [run] at h; subst h; simpa using hp
  | e :: post, pre, v, v', hp, h => by
    simp only [run] at h
    split at h
    · cases h
    · rename_i v1 h1
      have := run_ind hstep post (pre ++ [e]) v1 v' (hstep pre v e v1 hp h1) h
      simpa using this

theorem requests_append (s : Nat) (a b : List Event) : requests s (a ++ b) = requests s a ++ requests s b := by simp [requests]

theorem setStream_get (v : SyncServer) (s s' : Nat) (x : SyncStream) :
    (v.setStream s x).streams.get? s' = if s' = s then some x else v.streams.get? s' := AMap.get?_insert _ _ _ _

/-! ### Confirmations -/

/-- How often the item has been written to the table. -/
def writes (v : SyncServer) (name : String) (k : Key) : Nat :=
  match v.tables.get? name with
  | some t => t.writesOf k
  | none => 0

/-- The handler is about to confirm the item. -/
def confirms (name : String) (k : Key) (e : Nat × SyncStream) : Bool :=
  match e.2.phase with
  | .confirming it => it.table = name ∧ it.key = k
  | _ => false

/-- Confirmations follow insertions. -/
structure Conf (v : SyncServer) : Prop where
  keyed : ∀ name t, v.tables.get? name = some t → t.Keyed
  item : ∀ s cache it item w, v.streams.get? s = some ⟨cache, .inserting it item w⟩ → item.key = it.key
  count : v.dead = false → ∀ name k, v.confirmations name k + v.streams.entries.countP (confirms name k) ≤ v.writes name k
  le : ∀ name k, v.confirmations name k ≤ v.writes name k

/-- A stream that is not confirming anything changes to another that is not. -/
theorem Conf.set {v : SyncServer} (h : Conf v) {s : Nat} {x : SyncStream} (hx : ∀ it, x.phase ≠ .confirming it)
    (hi : ∀ it item w, x.phase = .inserting it item w → item.key = it.key) : Conf (v.setStream s x) := by
  refine ⟨h.keyed, fun s' cache it item w hs => ?_, fun hd name k => ?_, h.le⟩
  · rw [setStream_get] at hs
    split at hs
    · cases hs; exact hi _ _ _ rfl
    · exact h.item _ _ _ _ _ hs
  · have h1 := AMap.countP_insert v.streams (confirms name k) s x
    have h2 : AMap.weight (confirms name k) s (some x) = 0 := by
      have : confirms name k (s, x) = false := by
        unfold confirms
        split
        · exact absurd (by assumption) (hx _)
        · rfl
      simp [AMap.weight, this]
    have h3 := h.count hd name k
    show v.confirmations name k + (v.streams.insert s x).entries.countP (confirms name k) ≤ v.writes name k
    omega

theorem Conf.table {v : SyncServer} (h : Conf v) {name : String} {t t' : Table} (ht : v.tables.get? name = some t) (hg : Table.Grows t t') :
    Conf { v with tables := v.tables.insert name t' } := by
  have hm : ∀ name' k, v.writes name' k ≤ writes { v with tables := v.tables.insert name t' } name' k := by
    intro name' k
    unfold writes
    simp only [AMap.get?_insert]
    by_cases he : name' = name
    · subst he
      simp only [ht, if_true]
      exact Table.writesOf_mono hg.log k
    · simp only [he, if_false]
      exact Nat.le_refl _
  refine ⟨fun name' t1 h1 => ?_, h.item, fun hd name' k => Nat.le_trans (h.count hd name' k) (hm name' k), fun name' k => Nat.le_trans (h.le name' k) (hm name' k)⟩
  rw [AMap.get?_insert] at h1
  split at h1
  · cases h1; exact hg.keyed (h.keyed _ _ ht)
  · exact h.keyed _ _ h1

theorem Conf.dead {v : SyncServer} (h : Conf v) (hd : v.dead = false) {b : Bool} : Conf { v with dead := b } :=
  ⟨h.keyed, h.item, fun _ => h.count hd, h.le⟩

theorem Conf.release {v : SyncServer} (h : Conf v) (hd : v.dead = false) {s : Nat} {x : SyncStream} {it : InsertItem} : Conf (v.release s x it) := by
  unfold SyncServer.release
  split
  · exact h.dead hd
  · exact h.set (by simp) (by simp)

theorem Conf.step {v v' : SyncServer} {e : Event} (h : Conf v) (hs : v.step e = some v') : Conf v' := by
  unfold SyncServer.step at hs
  split at hs
  · cases hs
  · rename_i hdead
    have hd : v.dead = false := by simpa using hdead
    cases e with
    | start s =>
      simp only at hs
      split at hs
      · cases hs
      · cases hs; exact h.set (by simp) (by simp)
    | request s req =>
      simp only at hs
      split at hs
      · cases hs
        refine h.set ?_ ?_
        · unfold take; intro it
          simp only
          split
          · simp
          · split
            · simp
            · split <;> simp
        · unfold take; intro it item w
          simp only
          split
          · simp
          · split
            · simp
            · split
              · simp only [SyncPhase.inserting.injEq]
                rintro ⟨rfl, rfl, _⟩; rfl
              · simp
      · cases hs
    | eof s =>
      simp only at hs
      split at hs
      · cases hs; exact h.set (by simp) (by simp)
      · cases hs
    | insert s now d =>
      simp only at hs
      split at hs
      · rename_i cache it item w hst
        split at hs
        · cases hs
        · rename_i t ht
          cases hs
          have hkey := h.item _ _ _ _ _ hst
          have hg := Table.step_grows t (if w = true then .insertResume item now d else .insert item now d)
          have hw := fun hr => Table.insert_writes (h.keyed _ _ ht) (i := item) (now := now) (d := d)
            (op := if w = true then .insertResume item now d else .insert item now d) (by cases w <;> simp) hr
          have h1 := h.table ht hg
          rcases hres : (t.step (if w = true then .insertResume item now d else .insert item now d)).2 with (_ | _ | l) | c | _
          · simp only [hres, inserted]
            split
            · have hx := AMap.countP_insert v.streams
              refine ⟨h1.keyed, fun s' cache' it' item' w' hs' => ?_, fun _ name k => ?_, h1.le⟩
              · rw [setStream_get] at hs'
                split at hs'
                · cases hs'
                · exact h1.item _ _ _ _ _ hs'
              · have h2 := AMap.countP_insert v.streams (confirms name k) s ⟨cache, .confirming it⟩
                have h3 := h.count hd name k
                have h4 : AMap.weight (confirms name k) s (v.streams.get? s) = 0 := by rw [hst]; rfl
                show v.confirmations name k + (v.streams.insert s ⟨cache, .confirming it⟩).entries.countP (confirms name k) ≤ _
                by_cases hc : it.table = name ∧ it.key = k
                · have h5 : AMap.weight (confirms name k) s (some ⟨cache, .confirming it⟩) = 1 := by simp [AMap.weight, confirms, hc]
                  have h6 := hw hres
                  rw [hkey, hc.2] at h6
                  have h7 : v.writes name k = t.writesOf k := by unfold writes; rw [← hc.1, ht]
                  have h8 : (setStream { v with tables := v.tables.insert it.table (t.step (if w = true then .insertResume item now d else .insert item now d)).1 }
                      s ⟨cache, .confirming it⟩).writes name k = (t.step (if w = true then .insertResume item now d else .insert item now d)).1.writesOf k := by
                    unfold writes setStream
                    simp only [hc.1, AMap.get?_insert_self]
                  rw [h8]
                  omega
                · have h5 : AMap.weight (confirms name k) s (some ⟨cache, .confirming it⟩) = 0 := by
                    simp [AMap.weight, confirms]; exact fun a b => hc ⟨a, b⟩
                  have h6 := h1.count hd name k
                  have h7 : (setStream { v with tables := v.tables.insert it.table (t.step (if w = true then .insertResume item now d else .insert item now d)).1 }
                      s ⟨cache, .confirming it⟩).writes name k = writes { v with tables := v.tables.insert it.table (t.step (if w = true then .insertResume item now d else .insert item now d)).1 } name k := rfl
                  rw [h7]
                  have h8 : confirmations { v with tables := v.tables.insert it.table (t.step (if w = true then .insertResume item now d else .insert item now d)).1 } name k = v.confirmations name k := rfl
                  rw [h8] at h6
                  simp only at h6
                  omega
            · exact h1.release hd
          · simp only [hres, inserted]
            exact h1.set (by simp) (by simp only [SyncPhase.inserting.injEq]; rintro _ _ _ ⟨rfl, rfl, _⟩; exact hkey)
          · simp only [hres, inserted]
            exact h1.dead hd
          · simp only [hres, inserted]
            exact h1.set (by simp) (by simp)
          · simp only [hres, inserted]
            exact h1.dead hd
      · cases hs
    | confirm s ok =>
      simp only at hs
      split at hs
      · rename_i cache it hst
        split at hs
        · cases hs
          have h4 : ∀ name k, v.confirmations name k + (if it.table = name ∧ it.key = k then 1 else 0) = confirmations { v with confirmed := v.confirmed ++ [(s, it.table, it.key)] } name k := by
            intro name k
            simp [confirmations, List.countP_append, List.countP_cons]
          have h5 : ∀ name k, AMap.weight (confirms name k) s (v.streams.get? s) = if it.table = name ∧ it.key = k then 1 else 0 := by
            intro name k
            rw [hst]
            simp [AMap.weight, confirms]
          have h6 : ∀ name k, confirmations { v with confirmed := v.confirmed ++ [(s, it.table, it.key)] } name k ≤ v.writes name k := by
            intro name k
            have h7 := AMap.countP_insert v.streams (confirms name k) s ⟨cache, .reading⟩
            have h8 : AMap.weight (confirms name k) s (some ⟨cache, .reading⟩) = 0 := rfl
            have h9 := h.count hd name k
            have := h4 name k
            have := h5 name k
            omega
          unfold SyncServer.release
          split
          · exact ⟨h.keyed, h.item, fun hc => (by cases hc), h6⟩
          · rename_i c _
            refine ⟨h.keyed, fun s' cache' it' item' w' hs' => ?_, fun _ name k => ?_, h6⟩
            · rw [setStream_get] at hs'
              split at hs'
              · cases hs'
              · exact h.item _ _ _ _ _ hs'
            · have h7 := AMap.countP_insert v.streams (confirms name k) s ⟨c, .reading⟩
              have h8 : AMap.weight (confirms name k) s (some ⟨c, .reading⟩) = 0 := rfl
              have h9 := h.count hd name k
              have := h4 name k
              have := h5 name k
              show confirmations { v with confirmed := v.confirmed ++ [(s, it.table, it.key)] } name k + (v.streams.insert s ⟨c, .reading⟩).entries.countP (confirms name k) ≤ v.writes name k
              omega
        · cases hs
          exact h.set (by simp) (by simp)
      · cases hs
    | table name op =>
      simp only at hs
      split at hs
      · cases hs
      · rename_i t ht
        cases hs
        exact (h.table ht (Table.step_grows t op)).dead hd

/-! ### The chunks of a stream -/

/-- The chunks that the server has for a stream are those that the stream may use. -/
def StreamOk (reqs : List InsertReq) (x : SyncStream) : Prop :=
  match x.phase with
  | .reading => ∀ k, k ∈ x.cache.keys ↔ k ∈ kept reqs
  | .inserting it _ _ => kept reqs = it.keep
  | .confirming it => kept reqs = it.keep
  | .ended _ => True

/-- So for all streams. -/
structure Cached (evs : List Event) (v : SyncServer) : Prop where
  fresh : ∀ s, v.streams.get? s = none → requests s evs = []
  ok : ∀ s x, v.streams.get? s = some x → StreamOk (requests s evs) x

/-- Requests of other streams. -/
theorem requests_other {s s' : Nat} (h : s' ≠ s) (evs : List Event) (r : InsertReq) : requests s' (evs ++ [.request s r]) = requests s' evs := by
  simp [requests, Ne.symm h]

theorem requests_self (s : Nat) (evs : List Event) (r : InsertReq) : requests s (evs ++ [.request s r]) = requests s evs ++ [r] := by
  simp [requests]

theorem requests_none {e : Event} (h : ∀ s r, e ≠ .request s r) (s : Nat) (evs : List Event) : requests s (evs ++ [e]) = requests s evs := by
  rw [requests_append]
  cases e <;> simp [requests] at h ⊢

/-- Nothing happens to a stream. -/
theorem Cached.congr {evs evs' : List Event} {v v' : SyncServer} (h : Cached evs v) (h1 : v'.streams = v.streams)
    (h2 : ∀ s, requests s evs' = requests s evs) : Cached evs' v' := by
  constructor
  · intro s; rw [h1, h2]; exact h.fresh s
  · intro s x; rw [h1, h2]; exact h.ok s x

theorem Cached.set {evs evs' : List Event} {v : SyncServer} (h : Cached evs v) {s : Nat} {x : SyncStream}
    (h2 : ∀ s', s' ≠ s → requests s' evs' = requests s' evs) (hx : StreamOk (requests s evs') x) : Cached evs' (v.setStream s x) := by
  constructor
  · intro s' hs
    rw [setStream_get] at hs
    split at hs
    · cases hs
    · rename_i hne; rw [h2 s' hne]; exact h.fresh _ hs
  · intro s' x' hs
    rw [setStream_get] at hs
    split at hs
    · cases hs; subst_vars; exact hx
    · rename_i hne; rw [h2 s' hne]; exact h.ok _ _ hs

theorem Cached.release {evs evs' : List Event} {v : SyncServer} (h : Cached evs v) {s : Nat} {x : SyncStream} {it : InsertItem}
    (h2 : ∀ s', requests s' evs' = requests s' evs) (hk : kept (requests s evs) = it.keep) : Cached evs' (v.release s x it) := by
  unfold SyncServer.release
  split
  · exact h.congr rfl h2
  · rename_i c hc
    refine h.set (fun s' _ => h2 s') ?_
    intro k
    rw [h2, hk]
    exact releaseChunks_keys hc k

/-- A request. -/
theorem take_ok {reqs : List InsertReq} {v : SyncServer} {cache : Cache} (h : ∀ k, k ∈ cache.keys ↔ k ∈ kept reqs) (r : InsertReq) :
    StreamOk (reqs ++ [r]) (v.take ⟨cache, .reading⟩ r) := by
  unfold take
  simp only
  split
  · rename_i hi
    intro k
    show k ∈ (saveChunks .sync cache r.chunks).keys ↔ _
    rw [saveChunks_keys, h, kept_snoc, keptStep, hi]
    simp
  · rename_i it hi
    split
    · trivial
    · split
      · show kept _ = _
        rw [kept_snoc, keptStep, hi]
      · trivial

theorem Cached.step {evs : List Event} {v v' : SyncServer} {e : Event} (h : Cached evs v) (hs : v.step e = some v') : Cached (evs ++ [e]) v' := by
  unfold SyncServer.step at hs
  split at hs
  · cases hs
  · cases e with
    | start s =>
      have hn := requests_none (e := .start s) (by simp)
      simp only at hs
      split at hs
      · cases hs
      · rename_i hc
        cases hs
        refine h.set (fun s' _ => hn s' evs) ?_
        have : requests s evs = [] := h.fresh s (by simpa [AMap.contains] using hc)
        rw [hn, this]
        exact fun k => Iff.rfl
    | request s req =>
      simp only at hs
      split at hs
      · rename_i cache hst
        cases hs
        refine h.set (fun s' hne => requests_other hne evs req) ?_
        rw [requests_self]
        exact take_ok (h.ok s _ hst) req
      · cases hs
    | eof s =>
      have hn := requests_none (e := .eof s) (by simp)
      simp only at hs
      split at hs
      · cases hs
        exact h.set (fun s' _ => hn s' evs) trivial
      · cases hs
    | insert s now d =>
      have hn := requests_none (e := .insert s now d) (by simp)
      simp only at hs
      split at hs
      · rename_i cache it item w hst
        split at hs
        · cases hs
        · rename_i t ht
          cases hs
          have h0 := h.ok s _ hst
          have h1 : Cached evs { v with tables := v.tables.insert it.table (t.step (if w = true then .insertResume item now d else .insert item now d)).1 } :=
            h.congr rfl fun _ => rfl
          rcases (t.step (if w = true then .insertResume item now d else .insert item now d)).2 with (_ | _ | l) | c | _
          · simp only [inserted]
            split
            · refine h1.set (fun s' _ => hn s' evs) ?_
              rw [hn]; exact h0
            · exact h1.release (fun s' => hn s' evs) h0
          · simp only [inserted]
            refine h1.set (fun s' _ => hn s' evs) ?_
            rw [hn]; exact h0
          · exact h1.congr rfl fun s' => hn s' evs
          · exact h1.set (fun s' _ => hn s' evs) trivial
          · exact h1.congr rfl fun s' => hn s' evs
      · cases hs
    | confirm s ok =>
      have hn := requests_none (e := .confirm s ok) (by simp)
      simp only at hs
      split at hs
      · rename_i cache it hst
        split at hs
        · cases hs
          have h1 : Cached evs { v with confirmed := v.confirmed ++ [(s, it.table, it.key)] } := h.congr rfl fun _ => rfl
          exact h1.release (fun s' => hn s' evs) (h.ok s _ hst)
        · cases hs
          exact h.set (fun s' _ => hn s' evs) trivial
      · cases hs
    | table name op =>
      have hn := requests_none (e := .table name op) (by simp)
      simp only at hs
      split at hs
      · cases hs
      · cases hs
        exact h.congr rfl fun s' => hn s' evs

theorem Cached.init (tables : AMap String Table) : Cached [] (init tables) := ⟨fun _ _ => rfl, fun s x h => by simp [SyncServer.init] at h⟩

/-! ### Survival -/

/-- What a stream that is being served has promised. -/
def Promise (cfgs : AMap String Config) (x : SyncStream) : Prop :=
  match x.phase with
  | .inserting it item _ => (∀ k ∈ it.keep, k ∈ x.cache.keys) ∧ ∀ c, cfgs.get? it.table = some c → c.admits item.priority
  | .confirming it => ∀ k ∈ it.keep, k ∈ x.cache.keys
  | _ => True

/-- The server lives. -/
structure Lives (cfgs : AMap String Config) (v : SyncServer) : Prop where
  alive : v.dead = false
  tables : ∀ name t, v.tables.get? name = some t → ∃ c, cfgs.get? name = some c ∧ c.Reachable t
  streams : ∀ s x, v.streams.get? s = some x → Promise cfgs x

theorem Lives.set {cfgs : AMap String Config} {v : SyncServer} (h : Lives cfgs v) {s : Nat} {x : SyncStream} (hx : Promise cfgs x) :
    Lives cfgs (v.setStream s x) := by
  refine ⟨h.alive, h.tables, fun s' x' hs => ?_⟩
  rw [setStream_get] at hs
  split at hs
  · cases hs; exact hx
  · exact h.streams _ _ hs

theorem Lives.release {cfgs : AMap String Config} {v : SyncServer} (h : Lives cfgs v) {s : Nat} {x : SyncStream} {it : InsertItem}
    (hk : ∀ k ∈ it.keep, k ∈ x.cache.keys) : Lives cfgs (v.release s x it) := by
  unfold SyncServer.release
  rw [releaseChunks_sync.mp hk]
  exact h.set trivial

theorem Lives.table {cfgs : AMap String Config} {v : SyncServer} (h : Lives cfgs v) {name : String} {t : Table} {op : Op}
    (ht : v.tables.get? name = some t) (ho : ∀ c, cfgs.get? name = some c → c.Admissible op) :
    (t.step op).2 ≠ .died ∧ Lives cfgs { v with tables := v.tables.insert name (t.step op).1 } := by
  obtain ⟨c, hc, hr⟩ := h.tables _ _ ht
  have hnd : (t.step op).2 ≠ .died := by
    obtain ⟨mvs, _, hr', _⟩ := hr.inv.step op (c.okFor (ho c hc))
    rcases hr' with ⟨h1, _⟩ | ⟨h1, h2, _⟩ | ⟨l, h1, _⟩ | ⟨e, h1, h2, h3, _⟩ <;> rw [h1] <;> simp
  refine ⟨hnd, h.alive, fun name' t' ht' => ?_, h.streams⟩
  rw [AMap.get?_insert] at ht'
  split at ht'
  · cases ht'
    subst_vars
    obtain ⟨ops, h1, h2⟩ := hr
    refine ⟨c, hc, ops ++ [op], ?_, ?_⟩
    · intro o ho'
      rcases List.mem_append.mp ho' with ho' | ho'
      · exact h1 o ho'
      · rw [List.mem_singleton] at ho'; subst ho'; exact ho c hc
    · rw [Table.run_snoc h2]
      cases hres : (t.step op).2 with
      | died => exact absurd hres hnd
      | ok r => rfl
      | err e => rfl
  · exact h.tables _ _ ht'

theorem Lives.step {cfgs : AMap String Config} {evs : List Event} {v v' : SyncServer} {e : Event} (h : Lives cfgs v) (hc : Cached evs v)
    (he : EventOk cfgs evs e) (hs : v.step e = some v') : Lives cfgs v' := by
  unfold SyncServer.step at hs
  rw [if_neg (by simp [h.alive])] at hs
  cases e with
  | start s =>
    simp only at hs
    split at hs
    · cases hs
    · cases hs; exact h.set trivial
  | request s req =>
    simp only at hs
    split at hs
    · rename_i cache hst
      cases hs
      refine h.set ?_
      have h0 : ∀ k, k ∈ cache.keys ↔ k ∈ kept (requests s evs) := hc.ok s _ hst
      unfold take
      simp only
      split
      · trivial
      · rename_i it hi
        split
        · trivial
        · split
          · refine ⟨fun k hk => ?_, fun c hcfg => he.2 it hi c hcfg⟩
            show k ∈ (saveChunks .sync cache req.chunks).keys
            rw [saveChunks_keys, h0]
            exact he.1 it hi k hk
          · trivial
    · cases hs
  | eof s =>
    simp only at hs
    split at hs
    · cases hs; exact h.set trivial
    · cases hs
  | insert s now d =>
    simp only at hs
    split at hs
    · rename_i cache it item w hst
      split at hs
      · cases hs
      · rename_i t ht
        cases hs
        have h0 := h.streams s _ hst
        obtain ⟨h1, h2⟩ := h.table (op := if w = true then .insertResume item now d else .insert item now d) ht (by
          intro c hcfg
          have := h0.2 c hcfg
          cases w <;> exact this)
        rcases hres : (t.step (if w = true then .insertResume item now d else .insert item now d)).2 with (_ | _ | l) | c | _
        · simp only [inserted]
          split
          · refine h2.set ?_; exact h0.1
          · exact h2.release h0.1
        · refine h2.set ?_; exact h0
        · exfalso
          cases w <;> simp only [Bool.false_eq_true, if_false, if_true, Table.step, Table.insertOrAssign, Table.insertResume, Table.reply] at hres <;>
            (repeat' split at hres) <;> simp at hres
        · refine h2.set ?_; trivial
        · exact absurd hres h1
    · cases hs
  | confirm s ok =>
    simp only at hs
    split at hs
    · rename_i cache it hst
      split at hs
      · cases hs
        have h1 : Lives cfgs { v with confirmed := v.confirmed ++ [(s, it.table, it.key)] } := ⟨h.alive, h.tables, h.streams⟩
        exact h1.release (h.streams s _ hst)
      · cases hs; exact h.set trivial
    · cases hs
  | table name op =>
    simp only at hs
    split at hs
    · cases hs
    · rename_i t ht
      cases hs
      obtain ⟨h1, h2⟩ := h.table ht he
      exact ⟨by simpa using h1, h2.tables, h2.streams⟩

theorem Lives.init (cfgs : AMap String Config) : Lives cfgs (init (newTables cfgs)) := by
  refine ⟨rfl, fun name t ht => ?_, fun s x hs => by simp [SyncServer.init] at hs⟩
  change (newTables cfgs).get? name = some t at ht
  rw [newTables_get] at ht
  obtain ⟨c, h1, rfl⟩ := Option.map_eq_some_iff.mp ht
  exact ⟨c, h1, [], by simp, rfl⟩

end SyncServer
end Verif
