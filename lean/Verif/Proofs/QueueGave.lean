import Verif.Proofs.AsyncService
import Verif.Proofs.QueueService
import Verif.Spec.QueueAsync
/-
C112: what the insert streams of the asynchronous server have given to a table.
-/
namespace Verif.AsyncServer
open AsyncService (InOrder)

/-- The keys of the items for a table. -/
def keysFor (n : String) (reqs : List InsertReq) : List Key :=
  reqs.filterMap fun r => match r.item with
    | some it => if it.table = n then some it.key else none
    | none => none

theorem keysFor_append (n : String) (a b : List InsertReq) : keysFor n (a ++ b) = keysFor n a ++ keysFor n b := by simp [keysFor]

theorem keysFor_one {n : String} {q : InsertReq} {it : InsertItem} (h : q.item = some it) : keysFor n [q] = if it.table = n then [it.key] else [] := by
  simp only [keysFor, List.filterMap_cons, List.filterMap_nil, h]
  by_cases e : it.table = n <;> simp [e]

/-- What is known of an insert stream: `gv` it has given to the table, `st` the client has sent. -/
structure StreamBook (n : String) (gv st : List Key) (r : InsReactor) : Prop where
  order : gv <+: st
  all : InOrder r → gv = st
  conf : ∀ k, ((n, k) ∈ r.sent ∨ ∃ l ∈ r.responses, (n, k) ∈ l) → k ∈ gv
  calm : r.cancelled = false → (r.reading = true → r.stillReading = true) ∧ (r.finished = some none → r.stillReading = false)

/-- A section leaves the books. -/
def KeepsBook (r : InsReactor) (x : Res InsReactor) : Prop := ∀ n gv st r', x = .ok r' → StreamBook n gv st r → StreamBook n gv st r'

theorem kb_ok (r : InsReactor) : KeepsBook r (.ok r) := fun _ _ _ _ e h => by cases e; exact h

theorem kb_startRead {r : InsReactor} (hs : r.cancelled = false → r.stillReading = true) : KeepsBook r r.startRead := by
  intro n gv st r' e h
  unfold InsReactor.startRead at e
  split at e
  · cases e
  · cases e
    exact ⟨h.order, h.all, h.conf, fun g => ⟨fun _ => hs g, (h.calm g).2⟩⟩

theorem kb_maybeSend (r : InsReactor) : KeepsBook r r.maybeSend := by
  intro n gv st r' e h
  unfold InsReactor.maybeSend at e
  split at e
  · cases e; exact h
  · rename_i front l hl
    split at e
    · cases e; exact h
    · split at e
      · cases e
      · cases e
        refine ⟨h.order, h.all, fun k hk => h.conf k ?_, h.calm⟩
        rcases hk with hk | hk
        · rcases List.mem_append.mp hk with hk | hk
          · exact .inl hk
          · exact .inr ⟨front, by rw [hl]; exact List.mem_cons_self, hk⟩
        · exact .inr hk

theorem kb_setFinished {r : InsReactor} {c : Option Code} (hs : c = none → r.cancelled = false → r.stillReading = false) : KeepsBook r (r.setFinished c) := by
  intro n gv st r' e h
  unfold InsReactor.setFinished at e
  split at e
  · cases e
  · rename_i hf
    cases e
    have hf' : r.finished = none := by
      cases g : r.finished with
      | none => rfl
      | some x => exact absurd (.inl (by rw [g]; rfl)) hf
    refine ⟨h.order, fun g => ?_, fun k hk => h.conf k ?_, fun g => ⟨(h.calm g).1, fun g' => hs (by simpa using g') g⟩⟩
    · exact h.all (.inl hf')
    · rcases hk with hk | ⟨l, hl, _⟩
      · exact .inl hk
      · cases hl

theorem kb_maybeStartRead (r : InsReactor) : KeepsBook r r.maybeStartRead := by
  unfold InsReactor.maybeStartRead
  split
  · rename_i h
    exact kb_startRead fun _ => h.1
  · exact kb_ok r

/-- The read is done and there are no more. -/
theorem StreamBook.stop {n : String} {gv st : List Key} {r : InsReactor} (h : StreamBook n gv st r) : StreamBook n gv st { r with
    reading := false
    stillReading := false } :=
  ⟨h.order, h.all, h.conf, fun _ => ⟨(by intro g; cases g), fun _ => rfl⟩⟩

theorem kb_readEnd (r : InsReactor) : KeepsBook r ({ r with reading := false } : InsReactor).readEnd := by
  intro n gv st r' e h
  unfold InsReactor.readEnd at e
  simp only at e
  split at e
  · exact kb_setFinished (r := { r with reading := false, stillReading := false }) (fun _ _ => rfl) _ _ _ _ e h.stop
  · cases e
    exact h.stop

theorem kb_onWrite (r : InsReactor) (ok : Bool) : KeepsBook r (r.onWrite ok) := by
  intro n gv st r' e h
  unfold InsReactor.onWrite at e
  simp only at e
  have h1 : StreamBook n gv st { r with writing := false } := ⟨h.order, h.all, h.conf, h.calm⟩
  have h2 : StreamBook n gv st { r with
      writing := false
      responses := r.responses.tail } :=
    ⟨h.order, h.all, fun k hk => h.conf k (hk.imp_right fun ⟨l, hl, g⟩ => ⟨l, List.mem_of_mem_tail hl, g⟩), h.calm⟩
  split at e
  · cases e; exact h1
  · split at e
    · exact kb_setFinished (by intro g; cases g) _ _ _ _ e h1
    · split at e
      · rename_i hc
        exact kb_setFinished (fun _ _ => by simpa using hc.1) _ _ _ _ e h2
      · exact kb_maybeSend _ _ _ _ _ e h2

theorem kb_onContinue (r : InsReactor) (c : Option Code) : KeepsBook r (r.onContinue c) := by
  unfold InsReactor.onContinue
  cases c with
  | some e =>
    simp only
    split
    · exact kb_ok r
    · exact kb_setFinished (by intro g; cases g)
  | none => exact kb_maybeStartRead r

theorem mem_addLast {x y : String × Key} : ∀ {ls : List (List (String × Key))} {l : List (String × Key)}, l ∈ InsReactor.addLast x ls → y ∈ l →
    y = x ∨ ∃ l ∈ ls, y ∈ l
  | [], l, h, _ => by simp [InsReactor.addLast] at h
  | [a], l, h, hy => by
    simp only [InsReactor.addLast, List.mem_singleton] at h
    subst h
    rcases List.mem_append.mp hy with hy | hy
    · exact .inr ⟨a, by simp, hy⟩
    · exact .inl (by simpa using hy)
  | a :: b :: ls, l, h, hy => by
    simp only [InsReactor.addLast, List.mem_cons] at h
    rcases h with rfl | h
    · exact .inr ⟨_, List.mem_cons_self, hy⟩
    · rcases mem_addLast (ls := b :: ls) (l := l) (by simpa using h) hy with g | ⟨l', h1, h2⟩
      · exact .inl g
      · exact .inr ⟨l', List.mem_cons_of_mem _ h1, h2⟩

/-- The confirmation of an item that was given to a table. -/
theorem kb_addConfirmation (r : InsReactor) (it : InsertItem) {n : String} {gv st : List Key} (hk : it.table = n → it.key ∈ gv) {r' : InsReactor}
    (e : r.addConfirmation (it.table, it.key) = .ok r') (h : StreamBook n gv st r) : StreamBook n gv st r' := by
  unfold InsReactor.addConfirmation at e
  simp only at e
  have h1 : StreamBook n gv st { r with
      responses := if r.responses.length < 2 then r.responses ++ [[(it.table, it.key)]] else InsReactor.addLast (it.table, it.key) r.responses } := by
    refine ⟨h.order, h.all, fun k hm => ?_, h.calm⟩
    have key : (n, k) = (it.table, it.key) → k ∈ gv := fun g => by cases g; exact hk rfl
    rcases hm with hm | ⟨l, hl, hm⟩
    · exact h.conf k (.inl hm)
    · simp only at hl
      split at hl
      · rcases List.mem_append.mp hl with hl | hl
        · exact h.conf k (.inr ⟨l, hl, hm⟩)
        · rw [List.mem_singleton] at hl
          subst hl
          exact key (by simpa using hm)
      · rcases mem_addLast hl hm with g | g
        · exact key g
        · exact h.conf k (.inr g)
  generalize (if r.responses.length < 2 then r.responses ++ [[(it.table, it.key)]] else InsReactor.addLast (it.table, it.key) r.responses) = R at e h1
  split at e
  · exact kb_maybeSend _ _ _ _ _ e h1
  · cases e; exact h1

theorem kb_accepted (r : InsReactor) (b : Bool) (it : InsertItem) (hs : r.cancelled = false → r.stillReading = true) {n : String} {gv st : List Key}
    (hk : it.table = n → it.key ∈ gv) {r' : InsReactor} (e : r.accepted b it = .ok r') (h : StreamBook n gv st r) : StreamBook n gv st r' := by
  unfold InsReactor.accepted at e
  split at e
  · rename_i r1 hr1
    have h1 : StreamBook n gv st r1 := by
      split at hr1
      · exact kb_startRead hs _ _ _ _ hr1 h
      · cases hr1; exact h
    split at e
    · exact kb_addConfirmation r1 it hk e h1
    · cases e; exact h1
  · cases e
  · cases e

/-- The books of a table: `acc` are the items that were given to it, with the streams. -/
structure Gave (n : String) (evs : List Event) (v : AsyncServer) (acc : List (Nat × Key)) : Prop where
  table : ∀ t, v.tables.get? n = some t → t.w.accepted.map Item.key = acc.map Prod.snd
  items : ∀ t, v.tables.get? n = some t → ∀ i ∈ t.w.accepted, ∃ s, ∃ q ∈ requests s evs, ∃ it, q.item = some it ∧ it.table = n ∧ i.timesSampled = it.timesSampled
  fresh : ∀ s, v.streams.get? s = none → part s acc = [] ∧ keysFor n (requests s evs) = []
  streams : ∀ s r, v.streams.get? s = some r → StreamBook n (part s acc) (keysFor n (requests s evs)) r

theorem requests_app (s : Nat) (a b : List Event) : requests s (a ++ b) = requests s a ++ requests s b := by simp [requests]

theorem requests_rd (s s' : Nat) (q : InsertReq) : requests s' [.read s (some q)] = if s = s' then [q] else [] := by
  simp only [requests, List.filterMap_cons, List.filterMap_nil]
  by_cases h : s = s' <;> simp [h]

theorem Gave.put {n : String} {evs evs' : List Event} {v : AsyncServer} {acc acc' : List (Nat × Key)} (h : Gave n evs v acc) {T' : AMap String AsyncTable}
    (htab : ∀ t, T'.get? n = some t → t.w.accepted.map Item.key = acc'.map Prod.snd)
    (hit : ∀ t, T'.get? n = some t → ∀ i ∈ t.w.accepted, ∃ s, ∃ q ∈ requests s evs', ∃ it, q.item = some it ∧ it.table = n ∧ i.timesSampled = it.timesSampled)
    {s : Nat} (hoth : ∀ s', s' ≠ s → part s' acc' = part s' acc ∧ requests s' evs' = requests s' evs) {x : Res InsReactor}
    (hown : ∀ r', x = .ok r' → StreamBook n (part s acc') (keysFor n (requests s evs')) r')
    (hal : (({ v with tables := T' } : AsyncServer).put s x).dead = false) : Gave n evs' (({ v with tables := T' } : AsyncServer).put s x) acc' := by
  cases x with
  | err c => cases hal
  | died => cases hal
  | ok r' =>
    refine ⟨htab, hit, fun s' hs' => ?_, fun s' r hs' => ?_⟩
    · simp only [AsyncServer.put, AMap.get?_insert] at hs'
      split at hs'
      · cases hs'
      · rename_i hne
        rw [(hoth s' hne).1, (hoth s' hne).2]
        exact h.fresh s' hs'
    · simp only [AsyncServer.put, AMap.get?_insert] at hs'
      split at hs'
      · rename_i e
        cases hs'
        subst e
        exact hown _ rfl
      · rename_i hne
        rw [(hoth s' hne).1, (hoth s' hne).2]
        exact h.streams s' r hs'

/-- A section that gives nothing to a table. -/
theorem Gave.same {n : String} {evs evs' : List Event} {v : AsyncServer} {acc : List (Nat × Key)} (h : Gave n evs v acc) {T' : AMap String AsyncTable}
    (hT : (T'.get? n).map (fun t => t.w.accepted) = (v.tables.get? n).map fun t => t.w.accepted) (hreq : ∀ s', requests s' evs' = requests s' evs) {S : AMap Nat InsReactor}
    (hS : ∀ s, (S.get? s = none → v.streams.get? s = none ∨ part s acc = [] ∧ keysFor n (requests s evs) = []) ∧
      ∀ r, S.get? s = some r → StreamBook n (part s acc) (keysFor n (requests s evs)) r) {d : Bool} : Gave n evs' ⟨T', S, d⟩ acc := by
  have key : ∀ t, T'.get? n = some t → ∃ t0, v.tables.get? n = some t0 ∧ t0.w.accepted = t.w.accepted := by
    intro t ht
    rw [ht] at hT
    cases h0 : v.tables.get? n with
    | none => rw [h0] at hT; cases hT
    | some t0 => rw [h0] at hT; exact ⟨t0, rfl, by simpa using hT.symm⟩
  refine ⟨fun t ht => ?_, fun t ht => ?_, fun s hs => ?_, fun s r hs => ?_⟩
  · obtain ⟨t0, h1, h2⟩ := key t ht
    rw [← h2]; exact h.table t0 h1
  · obtain ⟨t0, h1, h2⟩ := key t ht
    rw [← h2]
    simp only [hreq]
    exact h.items t0 h1
  · rw [hreq]
    rcases (hS s).1 hs with g | g
    · exact h.fresh s g
    · exact g
  · rw [hreq]
    exact (hS s).2 r hs

theorem Gave.set {n : String} {evs : List Event} {e : Event} {v : AsyncServer} {acc : List (Nat × Key)} (h : Gave n evs v acc) (he : ∀ s q, e ≠ .read s (some q)) {s : Nat}
    {r : InsReactor} (hr : v.streams.get? s = some r) {x : Res InsReactor} (hk : KeepsBook r x) (hal : (v.put s x).dead = false) :
    Gave n (evs ++ [e]) (v.put s x) acc := by
  have hreq : ∀ s', requests s' (evs ++ [e]) = requests s' evs := fun s' => by
    rw [requests_app]
    cases e with
    | read s q =>
      cases q with
      | none => simp [requests]
      | some q => exact absurd rfl (he s q)
    | _ => simp [requests]
  exact h.put (T' := v.tables) h.table (fun t ht => by simp only [hreq]; exact h.items t ht) (fun s' _ => ⟨rfl, hreq s'⟩)
    (fun r' e => by rw [hreq]; exact hk _ _ _ _ e (h.streams s r hr)) hal

theorem Gave.step {n : String} {evs : List Event} {v v' : AsyncServer} {e : Event} {acc : List (Nat × Key)} (h : Gave n evs v acc) (hs : v.step e = some v')
    (hal : v'.dead = false) : ∃ acc', Gave n (evs ++ [e]) v' acc' := by
  unfold AsyncServer.step at hs
  split at hs
  · cases hs
  · cases e with
    | start s =>
      simp only at hs
      split at hs
      · cases hs
      · rename_i hc
        cases hs
        have hn : v.streams.get? s = none := by simpa [AMap.contains] using hc
        have hreq : ∀ s', requests s' (evs ++ [.start s]) = requests s' evs := fun s' => by rw [requests_app]; simp [requests]
        refine ⟨acc, h.same rfl hreq fun s' => ⟨fun g => ?_, fun r g => ?_⟩⟩
        · simp only [AMap.get?_insert] at g
          split at g
          · cases g
          · exact .inl g
        · simp only [AMap.get?_insert] at g
          split at g
          · rename_i e
            cases g
            subst e
            rw [(h.fresh _ hn).1, (h.fresh _ hn).2]
            exact ⟨List.prefix_refl _, fun _ => rfl, by simp [InsReactor.make], by simp [InsReactor.make]⟩
          · exact h.streams s' r g
    | read s q =>
      simp only at hs
      split at hs
      · cases hs
      · rename_i r hr
        split at hs
        · rename_i hrd
          cases hs
          unfold AsyncServer.onRead at hal ⊢
          cases q with
          | none => exact ⟨acc, h.set (by intro _ _ g; cases g) hr (kb_readEnd r) hal⟩
          | some q =>
            simp only at hal ⊢
            have hb := h.streams s r hr
            -- the other streams
            have hoth : ∀ acc' : List (Nat × Key), (∀ s', s' ≠ s → part s' acc' = part s' acc) → ∀ s', s' ≠ s →
                part s' acc' = part s' acc ∧ requests s' (evs ++ [.read s (some q)]) = requests s' evs := fun acc' ha s' hne => by
              refine ⟨ha s' hne, ?_⟩
              rw [requests_app, requests_rd, if_neg (fun g => hne g.symm), List.append_nil]
            have hreq : requests s (evs ++ [.read s (some q)]) = requests s evs ++ [q] := by rw [requests_app, requests_rd, if_pos rfl]
            have hmono : ∀ (s' : Nat) q', q' ∈ requests s' evs → q' ∈ requests s' (evs ++ [.read s (some q)]) := fun s' q' g => by
              rw [requests_app]; exact List.mem_append_left _ g
            have hitems : ∀ t, v.tables.get? n = some t → ∀ i ∈ t.w.accepted, ∃ s', ∃ q' ∈ requests s' (evs ++ [.read s (some q)]), ∃ it,
                q'.item = some it ∧ it.table = n ∧ i.timesSampled = it.timesSampled := fun t ht i hi => by
              obtain ⟨s', q', g1, g2⟩ := h.items t ht i hi
              exact ⟨s', q', hmono s' q' g1, g2⟩
            -- the stream has given nothing
            have nothing : ∀ {x : Res InsReactor}, (∀ r', x = .ok r' → StreamBook n (part s acc) (keysFor n (requests s (evs ++ [.read s (some q)]))) r') →
                (v.put s x).dead = false → ∃ acc', Gave n (evs ++ [.read s (some q)]) (v.put s x) acc' := fun {x} hx hal =>
              ⟨acc, h.put (T' := v.tables) h.table hitems (hoth acc fun _ _ => rfl) hx hal⟩
            have hpre : part s acc <+: keysFor n (requests s (evs ++ [.read s (some q)])) := by
              rw [hreq, keysFor_append]
              exact hb.order.trans (List.prefix_append _ _)
            -- the stream ends with an error
            have fails : ∀ {r0 : InsReactor} {c : Code}, r0.sent = r.sent → r0.responses = r.responses → r0.reading = false →
                (v.put s (r0.setFinished (some c))).dead = false → ∃ acc', Gave n (evs ++ [.read s (some q)]) (v.put s (r0.setFinished (some c))) acc' := by
              intro r0 c e1 e2 e3 hal
              refine nothing (fun r' e => ?_) hal
              unfold InsReactor.setFinished at e
              split at e
              · cases e
              · cases e
                refine ⟨hpre, fun g => ?_, fun k hk => hb.conf k ?_, fun _ => ⟨fun g => ?_, fun g => ?_⟩⟩
                · rcases g with g | ⟨g, _⟩ <;> cases g
                · rcases hk with hk | ⟨l, hl, _⟩
                  · exact .inl (e1 ▸ hk)
                  · cases hl
                · exact absurd g (by simp [e3])
                · cases g
            split
            · rename_i hfin
              rw [if_pos hfin] at hal
              refine nothing (fun r' e => ?_) hal
              refine kb_readEnd r _ _ _ _ e ⟨hpre, fun g => ?_, hb.conf, hb.calm⟩
              exfalso
              rcases g with g | ⟨g1, g2⟩
              · rw [g] at hfin; cases hfin
              · have := (hb.calm g2).1 hrd
                rw [(hb.calm g2).2 g1] at this
                cases this
            · rename_i hfin
              rw [if_neg hfin] at hal
              have hfin' : r.finished = none := by simpa using hfin
              have heq : part s acc = keysFor n (requests s evs) := hb.all (.inl hfin')
              have hstill : r.cancelled = false → r.stillReading = true := fun g => (hb.calm g).1 hrd
              unfold AsyncServer.process at hal ⊢
              split
              · rename_i hx
                rw [if_pos hx] at hal
                cases hal
              · rename_i hx
                rw [if_neg hx] at hal
                simp only at hal ⊢
                cases hitem : q.item with
                | none =>
                  rw [hitem] at hal
                  simp only at hal ⊢
                  refine nothing (fun r' e => ?_) hal
                  refine kb_startRead (r := { r with
                    reading := false
                    cache := saveChunks .async r.cache q.chunks }) hstill _ _ _ _ e ⟨hpre, fun _ => ?_, hb.conf, fun g => ⟨(by intro g; cases g), (hb.calm g).2⟩⟩
                  rw [hreq, keysFor_append, ← heq]
                  simp [keysFor, hitem]
                | some it =>
                  rw [hitem] at hal
                  simp only at hal ⊢
                  cases hf : findChunks (saveChunks .async r.cache q.chunks) (getChunkKeys it.traj) with
                  | none =>
                    rw [hf] at hal
                    exact fails (r0 := { r with
                      reading := false
                      cache := saveChunks .async r.cache q.chunks }) rfl rfl rfl hal
                  | some chunks =>
                    rw [hf] at hal
                    simp only at hal ⊢
                    cases hrel : releaseChunks .async (saveChunks .async r.cache q.chunks) it.keep with
                    | none => rw [hrel] at hal; cases hal
                    | some cache =>
                      rw [hrel] at hal
                      simp only at hal ⊢
                      unfold AsyncServer.giveItem at hal ⊢
                      cases ht : v.tables.get? it.table with
                      | none =>
                        rw [ht] at hal
                        exact fails (r0 := { r with
                          reading := false
                          cache := cache }) rfl rfl rfl hal
                      | some t =>
                        rw [ht] at hal
                        simp only at hal ⊢
                        split
                        · rename_i hv
                          rw [if_pos hv] at hal
                          have hacc : (Worker.enqueueInsert t.w (it.toItem chunks) s).accepted = t.w.accepted ++ [it.toItem chunks] := by
                            unfold Worker.enqueueInsert
                            rw [if_pos hv]
                            simp only
                            split <;> rfl
                          have hrq : q ∈ requests s (evs ++ [.read s (some q)]) := by rw [hreq]; simp
                          by_cases hn : it.table = n
                          · refine ⟨acc ++ [(s, it.key)], h.put (v := v) ?_ ?_ (hoth _ fun s' hne => ?_) (fun r' e => ?_) hal⟩
                            · intro t1 ht1
                              rw [hn, AMap.get?_insert_self] at ht1
                              cases ht1
                              rw [hacc, List.map_append, List.map_append, h.table t (hn ▸ ht)]
                              rfl
                            · intro t1 ht1 i hi
                              rw [hn, AMap.get?_insert_self] at ht1
                              cases ht1
                              simp only [hacc] at hi
                              rcases List.mem_append.mp hi with hi | hi
                              · exact hitems t (hn ▸ ht) i hi
                              · rw [List.mem_singleton] at hi
                                subst hi
                                exact ⟨s, q, hrq, it, hitem, hn, rfl⟩
                            · rw [part_append, part_one, if_neg (fun g => hne g.symm), List.append_nil]
                            · have hst : part s (acc ++ [(s, it.key)]) = keysFor n (requests s (evs ++ [.read s (some q)])) := by
                                rw [part_append, part_one, if_pos rfl, hreq, keysFor_append, keysFor_one hitem, if_pos hn, heq]
                              refine kb_accepted { r with
                                reading := false
                                cache := cache } _ it hstill (fun _ => ?_) e ⟨?_, fun _ => hst, fun k hk => ?_, fun g => ⟨(by intro g; cases g), (hb.calm g).2⟩⟩
                              · rw [part_append, part_one, if_pos rfl]; simp
                              · rw [hst]; exact List.prefix_refl _
                              · rw [part_append]; exact List.mem_append_left _ (hb.conf k hk)
                          · have hn' : n ≠ it.table := fun g => hn g.symm
                            refine ⟨acc, h.put (v := v) ?_ ?_ (hoth _ fun s' hne => rfl) (fun r' e => ?_) hal⟩
                            · intro t1 ht1
                              rw [AMap.get?_insert, if_neg hn'] at ht1
                              exact h.table t1 ht1
                            · intro t1 ht1
                              rw [AMap.get?_insert, if_neg hn'] at ht1
                              exact hitems t1 ht1
                            · refine kb_accepted { r with
                                reading := false
                                cache := cache } _ it hstill (fun g => absurd g hn) e ⟨hpre, fun _ => ?_, hb.conf, fun g => ⟨(by intro g; cases g), (hb.calm g).2⟩⟩
                              rw [hreq, keysFor_append, keysFor_one hitem, if_neg hn, heq, List.append_nil]
                        · rename_i hv
                          rw [if_neg hv] at hal
                          exact fails (r0 := { r with
                            reading := false
                            cache := cache }) rfl rfl rfl hal
        · cases hs
    | write s ok =>
      simp only at hs
      split at hs
      · cases hs
      · rename_i r hr
        split at hs
        · cases hs
          exact ⟨acc, h.set (by intro _ _ g; cases g) hr (kb_onWrite r ok) hal⟩
        · cases hs
    | cancel s =>
      simp only at hs
      split at hs
      · cases hs
      · rename_i r hr
        split at hs
        · cases hs
        · cases hs
          refine ⟨acc, h.set (by intro _ _ g; cases g) hr (fun n gv st r' e hb => ?_) hal⟩
          cases e
          refine ⟨hb.order, fun g => hb.all ?_, hb.conf, fun g => by cases g⟩
          rcases g with g | ⟨_, g⟩
          · exact .inl g
          · cases g
    | done s =>
      simp only at hs
      split at hs
      · cases hs
      · rename_i r hr
        split at hs
        · cases hs
          refine ⟨acc, h.set (by intro _ _ g; cases g) hr (fun n gv st r' e hb => ?_) hal⟩
          cases e
          exact ⟨hb.order, hb.all, hb.conf, hb.calm⟩
        · cases hs
    | table name a =>
      have hreq : ∀ s', requests s' (evs ++ [.table name a]) = requests s' evs := fun s' => by rw [requests_app]; simp [requests]
      simp only at hs
      split at hs
      · cases hs
      · rename_i t ht
        split at hs
        · cases hs
        · rename_i hi
          split at hs
          · cases hs
          · rename_i w' hw'
            cases hs
            refine ⟨acc, h.same ?_ hreq fun s => ⟨fun g => .inl g, h.streams s⟩⟩
            rw [AMap.get?_insert]
            split
            · subst_vars
              rw [ht]
              simp [(frame hw' (by simpa using hi)).2.1]
            · rfl
    | deliver name i =>
      have hreq : ∀ s', requests s' (evs ++ [.deliver name i]) = requests s' evs := fun s' => by rw [requests_app]; simp [requests]
      simp only at hs
      split at hs
      · cases hs
      · rename_i t ht
        split at hs
        · cases hs
        · rename_i o ho
          cases hs
          have key : ∀ t' : AsyncTable, t'.w = t.w → ((v.tables.insert name t').get? n).map (fun t => t.w.accepted) = (v.tables.get? n).map fun t => t.w.accepted := by
            intro t' e
            rw [AMap.get?_insert]
            split
            · subst_vars
              rw [ht]
              simp [e]
            · rfl
          cases o with
          | answer a b => exact ⟨acc, h.same (by exact key { t with todo := t.todo.eraseIdx i } rfl) hreq fun s => ⟨fun g => .inl g, h.streams s⟩⟩
          | notify s st => exact ⟨acc, h.same (by exact key { t with
              todo := t.todo.eraseIdx i
              calling := if v.exists? s then t.calling ++ [(s, st)] else t.calling } rfl) hreq fun s => ⟨fun g => .inl g, h.streams s⟩⟩
    | call name i =>
      have hreq : ∀ s', requests s' (evs ++ [.call name i]) = requests s' evs := fun s' => by rw [requests_app]; simp [requests]
      simp only at hs
      split at hs
      · cases hs
      · rename_i t ht
        split at hs
        · cases hs
        · rename_i s st hst
          cases hs
          have key : ((v.tables.insert name { t with calling := t.calling.eraseIdx i }).get? n).map (fun t => t.w.accepted) =
              (v.tables.get? n).map fun t => t.w.accepted := by
            rw [AMap.get?_insert]
            split
            · subst_vars
              rw [ht]
              rfl
            · rfl
          have h1 : Gave n (evs ++ [.call name i]) ⟨v.tables.insert name { t with calling := t.calling.eraseIdx i }, v.streams, v.dead⟩ acc :=
            h.same key hreq fun s => ⟨fun g => .inl g, h.streams s⟩
          unfold AsyncServer.callBack at hal ⊢
          split
          · rename_i hn
            rw [hn] at hal
            cases hal
          · rename_i r hr
            rw [hr] at hal
            simp only at hal
            split
            · rename_i hg
              rw [if_pos hg] at hal
              cases hal
            · rename_i hg
              rw [if_neg hg] at hal
              refine ⟨acc, h1.put (T' := v.tables.insert name { t with calling := t.calling.eraseIdx i }) h1.table h1.items (fun s' _ => ⟨rfl, rfl⟩)
                (fun r' e => ?_) hal⟩
              exact kb_onContinue r st _ _ _ _ e (h1.streams s r hr)

theorem Gave.run (n : String) {T : AMap String Table} {evs : List Event} {v : AsyncServer} (hr : (AsyncServer.init T).run evs = some v) (hal : v.dead = false) :
    ∃ acc, Gave n evs v acc := by
  refine run_ind (P := fun pre v => v.dead = false → ∃ acc, Gave n pre v acc) ?_ evs [] _ v (fun _ => ⟨[], fun t ht => ?_, fun t ht => ?_, fun s _ => ⟨rfl, rfl⟩,
    fun s r hs => by cases hs⟩) hr hal
  · intro pre v e v' ih hs hal
    obtain ⟨acc, h⟩ := ih (by
      unfold AsyncServer.step at hs
      split at hs
      · cases hs
      · rename_i hd; simpa using hd)
    exact h.step hs hal
  all_goals
    rw [init_get] at ht
    obtain ⟨t0, _, rfl⟩ := Option.map_eq_some_iff.mp ht
    simp [Worker.init]

/-- What was sent on a stream. -/
theorem part_sent (n : String) (s : Nat) (evs : List AsyncService.Event) : part s (AsyncService.sent n evs) = keysFor n (AsyncService.insertRequests s evs) := by
  induction evs with
  | nil => rfl
  | cons e evs ih =>
    rw [← List.singleton_append]
    have h1 : AsyncService.sent n ([e] ++ evs) = AsyncService.sent n [e] ++ AsyncService.sent n evs := by simp only [AsyncService.sent, List.filterMap_append]
    have h2 : AsyncService.insertRequests s ([e] ++ evs) = AsyncService.insertRequests s [e] ++ AsyncService.insertRequests s evs := by
      simp only [AsyncService.insertRequests, List.filterMap_append]
    rw [h1, h2, part_append, keysFor_append, ih]
    congr 1
    simp only [AsyncService.sent, AsyncService.insertRequests, List.filterMap_cons, List.filterMap_nil]
    split
    · rename_i h
      split at h
      · rename_i s' c it
        split at h
        · cases h
        · rename_i hn
          by_cases hs : s' = s <;> simp [keysFor, part, hs, hn]
      · rename_i hne
        split
        · rfl
        · rename_i r hr
          split at hr
          · rename_i s' r'
            split at hr
            · cases hr
              obtain ⟨c, it⟩ := r
              cases it with
              | none => rfl
              | some it => exact absurd rfl (hne s' c it)
            · cases hr
          · cases hr
    · rename_i x h
      split at h
      · rename_i s' c it
        split at h
        · rename_i hn
          cases h
          by_cases hs : s' = s <;> simp [keysFor, part, hs, hn]
        · cases h
      · cases h

end Verif.AsyncServer
