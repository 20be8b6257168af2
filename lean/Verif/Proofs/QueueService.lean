import Verif.Spec.QueueService
import Verif.Props.C10_C11_Queue
import Verif.Spec.Choice
/-
C112: what becomes of the items of a queue.
-/
namespace Verif
open Table (Op)
open Spec (Buf Discipline Answer QueueOp)

theorem part_append {α : Type} (s : Nat) (l l' : List (Nat × α)) : part s (l ++ l') = part s l ++ part s l' := by
  simp [part]

theorem mem_part {α : Type} {s : Nat} {l : List (Nat × α)} {a : α} : a ∈ part s l ↔ (s, a) ∈ l := by
  simp [part]

theorem part_nil {α : Type} (s : Nat) : part s ([] : List (Nat × α)) = [] := rfl

theorem part_one {α : Type} (s s' : Nat) (a : α) : part s [(s', a)] = if s' = s then [a] else [] := by
  simp only [part, List.filter_cons, List.filter_nil]
  by_cases h : s' = s <;> simp [h]

theorem part_tag {α : Type} (s s' : Nat) (l : List α) : part s (l.map (s', ·)) = if s' = s then l else [] := by
  induction l with
  | nil => simp [part]
  | cons a l ih =>
    rw [List.map_cons, ← List.singleton_append, part_append, part_one, ih]
    split <;> simp

theorem takenFrom_append (n : String) (l l' : List (String × Sampled)) : takenFrom n (l ++ l') = takenFrom n l ++ takenFrom n l' := by
  simp [takenFrom]

theorem takenFrom_tag (n n' : String) (l : List Sampled) : takenFrom n (l.map (n', ·)) = if n' = n then l else [] := by
  induction l with
  | nil => simp [takenFrom]
  | cons a l ih =>
    rw [List.map_cons, ← List.singleton_append, takenFrom_append, ih]
    simp only [takenFrom, List.filter_cons, List.filter_nil]
    by_cases h : n' = n <;> simp [h]

/-- The keys of what was given. -/
abbrev givenKeys (l : List (Nat × Sampled)) : List Key := l.map fun x => x.2.item.key

/-- The books of a queue or stack. -/
structure Ledger (m : Discipline) (cap : Nat) (t : Table) (b : Buf) (ins : List (Nat × Key)) (giv : List (Nat × Sampled)) : Prop where
  q : QInv m cap t b
  room : b.items.length ≤ cap
  cons : Conserved m (ins.map Prod.snd) (givenKeys giv ++ b.items.map Item.key)

namespace Ledger
variable {m : Discipline} {cap : Nat} {t : Table} {b : Buf} {ins : List (Nat × Key)} {giv : List (Nat × Sampled)}

theorem keys (h : Ledger m cap t b ins giv) : ∀ k ∈ b.items.map Item.key, k ∈ ins.map Prod.snd := fun _ hk =>
  h.cons.perm.mem_iff.mpr (List.mem_append_right _ hk)

/-- A critical section that brings no item and takes none. -/
theorem quiet (h : Ledger m cap t b ins giv) (hcap : 0 < cap) {op : Op} (hq : QueueOp op) (hr : op ≠ .reset)
    (h1 : acceptedKeys [(op, (b.step m cap op).2)] = []) (h2 : deliveredKeys [(b.step m cap op).2] = []) :
    Ledger m cap (t.step op).1 (b.step m cap op).1 ins giv := by
  obtain ⟨g1, _⟩ := h.q.step hcap op hq
  obtain ⟨s1, s2⟩ := queue_step_keys m cap b op hr (by rw [h1]; intro k hk; cases hk)
  rw [h1, h2, List.append_nil, List.nil_append] at s1
  exact ⟨g1, s2 h.room, h.cons.trans (s1.append_left _)⟩

theorem call (h : Ledger m cap t b ins giv) (hcap : 0 < cap) {op : Op} (hop : op = .close ∨ ∃ us, op = .mutate us []) :
    ∃ b', Ledger m cap (t.step op).1 b' ins giv ∧ (t.step op).2 = .ok .done := by
  have hq : QueueOp op := by rcases hop with rfl | ⟨us, rfl⟩ <;> simp [QueueOp]
  have ha : (b.step m cap op).2 = .done := by rcases hop with rfl | ⟨us, rfl⟩ <;> rfl
  refine ⟨_, h.quiet hcap hq (by rcases hop with rfl | ⟨us, rfl⟩ <;> simp) ?_ (by rw [ha]; rfl), ?_⟩
  · rw [ha]; rcases hop with rfl | ⟨us, rfl⟩ <;> rfl
  · have := (h.q.step hcap op hq).2
    rw [ha] at this
    cases hr : (t.step op).2 with
    | ok r => rw [hr] at this; cases r <;> simp_all [Spec.answer]
    | err c => rw [hr] at this; simp [Spec.answer] at this
    | died => rw [hr] at this; simp [Spec.answer] at this

/-- An insertion. -/
theorem insert (h : Ledger m cap t b ins giv) (hcap : 0 < cap) {op : Op} {i : Item} {now : Int} (hop : Op.item op = some (i, now)) (hi : i.timesSampled = 0) (s : Nat)
    (hnew : i.key ∉ ins.map Prod.snd) :
    ((t.step op).2 = .ok .done ∧ ∃ b', Ledger m cap (t.step op).1 b' (ins ++ [(s, i.key)]) giv) ∨
    (((t.step op).2 = .ok .blocked ∨ ∃ c, (t.step op).2 = .err c) ∧ ∃ b', Ledger m cap (t.step op).1 b' ins giv) := by
  have hq : QueueOp op := by cases op <;> simp only [Op.item, reduceCtorEq, Option.some.injEq, Prod.mk.injEq] at hop <;> (obtain ⟨rfl, rfl⟩ := hop; exact hi)
  have hr : op ≠ .reset := by rintro rfl; cases hop
  obtain ⟨g1, g2⟩ := h.q.step hcap op hq
  have hacc : ∀ a, a = .done → acceptedKeys [(op, a)] = [i.key] := by
    rintro a rfl
    cases op <;> simp only [Op.item, reduceCtorEq, Option.some.injEq, Prod.mk.injEq] at hop <;> (obtain ⟨rfl, rfl⟩ := hop; rfl)
  have hcases : (b.step m cap op).2 = .done ∨ (b.step m cap op).2 = .blocked ∨ ∃ c, (b.step m cap op).2 = .error c := by
    cases op <;> simp only [Op.item, reduceCtorEq] at hop <;> simp only [Buf.step] <;> repeat' (first | split | simp)
  have hno : ∀ a, (a = Answer.blocked ∨ ∃ c, a = .error c) → acceptedKeys [(op, a)] = [] ∧ deliveredKeys [a] = [] := by
    rintro a (rfl | ⟨c, rfl⟩) <;> cases op <;> exact ⟨rfl, rfl⟩
  rcases hcases with ha | ha
  · refine .inl ⟨?_, (b.step m cap op).1, g1, ?_, ?_⟩
    · rw [ha] at g2
      cases hx : (t.step op).2 with
      | ok r => rw [hx] at g2; cases r <;> simp_all [Spec.answer]
      | err c => rw [hx] at g2; simp [Spec.answer] at g2
      | died => rw [hx] at g2; simp [Spec.answer] at g2
    all_goals
      obtain ⟨s1, s2⟩ := queue_step_keys m cap b op hr (by rw [hacc _ ha]; intro k hk hkb; cases List.mem_singleton.mp hk; exact hnew (h.keys _ hkb))
      rw [hacc _ ha, ha] at s1
    · exact s2 h.room
    · rw [List.map_append, List.map_cons, List.map_nil]
      have := (h.cons.append_right [i.key]).trans (by rw [List.append_assoc]; exact s1.append_left _)
      simpa [deliveredKeys] using this
  · obtain ⟨e1, e2⟩ := hno _ ha
    refine .inr ⟨?_, _, h.quiet hcap hq hr e1 e2⟩
    cases hx : (t.step op).2 with
    | ok r => rw [hx] at g2; rcases ha with ha | ⟨c, ha⟩ <;> rw [ha] at g2 <;> cases r <;> simp_all [Spec.answer]
    | err c => exact .inr ⟨c, rfl⟩
    | died => rw [hx] at g2; rcases ha with ha | ⟨c, ha⟩ <;> rw [ha] at g2 <;> simp [Spec.answer] at g2

/-- A sample. -/
theorem sample (h : Ledger m cap t b ins giv) (hcap : 0 < cap) {op : Op} (hop : (∃ x ds, op = .sample x ds ∨ op = .sampleResume x ds) ∨ ∃ rl d, op = .workerSample rl d) (q : Nat) :
    (∃ l, (t.step op).2 = .ok (.samples l) ∧ ∃ b', Ledger m cap (t.step op).1 b' ins (giv ++ l.map (q, ·))) ∨
    (((t.step op).2 = .ok .blocked ∨ ∃ c, (t.step op).2 = .err c) ∧ ∃ b', Ledger m cap (t.step op).1 b' ins giv) := by
  have hq : QueueOp op := by rcases hop with ⟨x, ds, rfl | rfl⟩ | ⟨rl, d, rfl⟩ <;> trivial
  have hr : op ≠ .reset := by rcases hop with ⟨x, ds, rfl | rfl⟩ | ⟨rl, d, rfl⟩ <;> simp
  have hacc : ∀ a, acceptedKeys [(op, a)] = [] := by
    intro a
    rcases hop with ⟨x, ds, rfl | rfl⟩ | ⟨rl, d, rfl⟩ <;> rfl
  obtain ⟨g1, g2⟩ := h.q.step hcap op hq
  have hcases : (∃ l, (b.step m cap op).2 = .delivered l) ∨ (b.step m cap op).2 = .blocked ∨ ∃ c, (b.step m cap op).2 = .error c := by
    rcases hop with ⟨x, ds, rfl | rfl⟩ | ⟨rl, d, rfl⟩ <;> simp only [Buf.step, Buf.deliver] <;> repeat' (first | split | simp)
  rcases hcases with ⟨l', ha⟩ | ha
  · rw [ha] at g2
    obtain ⟨l, hx, hl⟩ : ∃ l, (t.step op).2 = .ok (.samples l) ∧ l.map Sampled.item = l' := by
      cases hx : (t.step op).2 with
      | ok r => rw [hx] at g2; cases r <;> simp_all [Spec.answer]
      | err c => rw [hx] at g2; simp [Spec.answer] at g2
      | died => rw [hx] at g2; simp [Spec.answer] at g2
    refine .inl ⟨l, hx, (b.step m cap op).1, g1, ?_, ?_⟩
    all_goals
      obtain ⟨s1, s2⟩ := queue_step_keys m cap b op hr (by rw [hacc]; intro k hk; cases hk)
      rw [hacc, ha, List.append_nil] at s1
    · exact s2 h.room
    · have := h.cons.trans (s1.append_left _)
      simpa [deliveredKeys, ← hl, givenKeys, Function.comp_def] using this
  · refine .inr ⟨?_, _, h.quiet hcap hq hr (hacc _) (by rcases ha with ha | ⟨c, ha⟩ <;> rw [ha] <;> rfl)⟩
    cases hx : (t.step op).2 with
    | ok r => rw [hx] at g2; rcases ha with ha | ⟨c, ha⟩ <;> rw [ha] at g2 <;> cases r <;> simp_all [Spec.answer]
    | err c => exact .inr ⟨c, rfl⟩
    | died => rw [hx] at g2; rcases ha with ha | ⟨c, ha⟩ <;> rw [ha] at g2 <;> simp [Spec.answer] at g2

theorem make (m : Discipline) (hcap : 0 < cap) : Ledger m cap (m.config cap hcap).init ⟨[], false⟩ [] [] :=
  ⟨QInv.make m cap hcap, Nat.zero_le _, Conserved.of_eq rfl⟩

end Ledger
end Verif

namespace Verif
open Table (Op)
open Spec (Buf Discipline Answer QueueOp)
namespace Service

/-- What of the items of a stream is in the books. -/
def Booked (n : String) (x : Option SyncStream) (a b : List Key) : Prop :=
  match x with
  | none => a = [] ∧ b = []
  | some ⟨_, .reading⟩ => a = b
  | some ⟨_, .ended none⟩ => a = b
  | some ⟨_, .ended (some _)⟩ => a <+: b
  | some ⟨_, .confirming it⟩ => a = b ∧ (it.table = n → it.key ∈ a)
  | some ⟨_, .inserting it item _⟩ => item.key = it.key ∧ (it.table = n → item.timesSampled = 0 ∧ b = a ++ [it.key]) ∧ (it.table ≠ n → a = b)

theorem Booked.prefix {n : String} {x : Option SyncStream} {a b : List Key} (h : Booked n x a b) : a <+: b := by
  unfold Booked at h
  split at h
  · obtain ⟨rfl, rfl⟩ := h; exact List.prefix_rfl
  · subst h; exact List.prefix_rfl
  · subst h; exact List.prefix_rfl
  · exact h
  · rw [h.1]; exact List.prefix_rfl
  · rename_i it item _
    by_cases hn : it.table = n
    · rw [(h.2.1 hn).2]; exact List.prefix_append _ _
    · rw [h.2.2 hn]; exact List.prefix_rfl

/-- The books of the server for a table. -/
structure Books (m : Discipline) (cap : Nat) (n : String) (evs : List Event) (v : Service) (ins : List (Nat × Key)) (giv : List (Nat × Sampled)) : Prop where
  table : ∃ t b, v.tables.get? n = some t ∧ Ledger m cap t b ins giv
  booked : ∀ s, Booked n (v.inserts.get? s) (part s ins) (part s (sent n evs))
  confirmed : ∀ s k, (s, n, k) ∈ v.confirmed → (s, k) ∈ ins
  got : ∀ q, part q giv = takenFrom n (v.got q)

theorem sent_snoc (n : String) (evs : List Event) (e : Event) : sent n (evs ++ [e]) = sent n evs ++ sent n [e] := by
  simp [sent, List.filterMap_append]

theorem part_nodup {s : Nat} {l : List (Nat × Key)} (h : (l.map Prod.snd).Nodup) : (part s l).Nodup :=
  h.sublist (List.filter_sublist.map _)

/-- A key belongs to one stream. -/
theorem one_stream : ∀ {l : List (Nat × Key)} (_ : (l.map Prod.snd).Nodup) {s s' : Nat} {k : Key}, (s, k) ∈ l → (s', k) ∈ l → s = s'
  | [], _, _, _, _, h, _ => by cases h
  | x :: l, h, s, s', k, h1, h2 => by
    simp only [List.map_cons, List.nodup_cons] at h
    rcases List.mem_cons.mp h1 with g1 | g1 <;> rcases List.mem_cons.mp h2 with g2 | g2
    · rw [← g1] at g2; cases g2; rfl
    · exact absurd (List.mem_map_of_mem (f := Prod.snd) g2) (by rw [← g1] at h; exact h.1)
    · exact absurd (List.mem_map_of_mem (f := Prod.snd) g1) (by rw [← g2] at h; exact h.1)
    · exact one_stream h.2 g1 g2

namespace Books
variable {m : Discipline} {cap : Nat} {n : String} {evs : List Event} {v : Service} {ins : List (Nat × Key)} {giv : List (Nat × Sampled)}

theorem mem_sent (h : Books m cap n evs v ins giv) {s : Nat} {k : Key} (hk : (s, k) ∈ ins) : (s, k) ∈ sent n evs :=
  mem_part.mp ((h.booked s).prefix.subset (mem_part.mpr hk))

/-- The item that a stream is about to insert is not in the books. -/
theorem fresh (h : Books m cap n evs v ins giv) (hu : ((sent n evs).map Prod.snd).Nodup) {s : Nat} {k : Key} (hp : part s (sent n evs) = part s ins ++ [k]) :
    k ∉ ins.map Prod.snd := by
  intro hk
  obtain ⟨⟨s', k'⟩, h1, rfl⟩ := List.mem_map.mp hk
  have hs : (s, k') ∈ sent n evs := mem_part.mp (by rw [hp]; simp)
  have := one_stream hu hs (h.mem_sent h1)
  subst this
  have hd := part_nodup (s := s) hu
  rw [hp, List.nodup_append] at hd
  exact hd.2.2 _ (mem_part.mpr h1) _ (List.mem_singleton.mpr rfl) rfl

theorem upd {v' : Service} {e : Event} {ins' : List (Nat × Key)} (h : Books m cap n evs v ins giv) (s : Nat)
    (ht : ∃ t b, v'.tables.get? n = some t ∧ Ledger m cap t b ins' giv)
    (hs : ∀ s', s' ≠ s → v'.inserts.get? s' = v.inserts.get? s' ∧ part s' ins' = part s' ins ∧ part s' (sent n [e]) = [])
    (hb : Booked n (v'.inserts.get? s) (part s ins') (part s (sent n evs) ++ part s (sent n [e])))
    (hc : ∀ s k, (s, n, k) ∈ v'.confirmed → (s, k) ∈ ins') (hg : ∀ q, v'.got q = v.got q) : Books m cap n (evs ++ [e]) v' ins' giv := by
  refine ⟨ht, fun s' => ?_, hc, fun q => by rw [hg]; exact h.got q⟩
  rw [sent_snoc, part_append]
  by_cases he : s' = s
  · subst he; exact hb
  · obtain ⟨a1, a2, a3⟩ := hs s' he
    rw [a1, a2, a3, List.append_nil]
    exact h.booked s'

/-- A step of an insert stream. -/
theorem insert_step {e : SyncServer.Event} {x : SyncServer} (hcap : 0 < cap) (h : Books m cap n evs v ins giv) (he : ofStream e = true)
    (hu : ((sent n evs).map Prod.snd).Nodup) (hq : AsQueue n (evs ++ [.insert e])) (hs : v.asServer.step e = some x) (hd : x.dead = false) :
    ∃ ins', Books m cap n (evs ++ [.insert e]) { v with tables := x.tables, inserts := x.streams, dead := x.dead, confirmed := x.confirmed } ins' giv := by
  obtain ⟨t, b, ht, hL⟩ := h.table
  -- only the stream changes
  have hset : ∀ (s : Nat) (y : SyncStream), x = v.asServer.setStream s y → (∀ s', s' ≠ s → part s' (sent n [.insert e]) = []) →
      Booked n (some y) (part s ins) (part s (sent n evs) ++ part s (sent n [.insert e])) →
      ∃ ins', Books m cap n (evs ++ [.insert e]) { v with tables := x.tables, inserts := x.streams, dead := x.dead, confirmed := x.confirmed } ins' giv := by
    intro s y hx ho hb
    subst hx
    refine ⟨ins, h.upd s ⟨t, b, ht, hL⟩ (fun s' hs' => ⟨?_, rfl, ho s' hs'⟩) ?_ h.confirmed fun q => rfl⟩
    · simp only [SyncServer.setStream, asServer, AMap.get?_insert, if_neg hs']
    · simp only [SyncServer.setStream, asServer, AMap.get?_insert_self]; exact hb
  unfold SyncServer.step at hs
  split at hs
  · cases hs
  · cases e with
    | start s =>
      simp only at hs
      split at hs
      · cases hs
      · rename_i hno
        refine hset s _ (Option.some.inj hs).symm (fun _ _ => rfl) ?_
        have hn : v.inserts.get? s = none := by
          simpa [AMap.contains, asServer] using hno
        have := h.booked s
        rw [hn] at this
        obtain ⟨e1, e2⟩ := this
        show _ = _
        rw [e1, e2]
        rfl
    | request s req =>
      simp only at hs
      split at hs
      · rename_i cache hx
        have hb := h.booked s
        have hx : v.inserts.get? s = some ⟨cache, .reading⟩ := hx
        rw [hx] at hb
        have hb : part s ins = part s (sent n evs) := hb
        obtain ⟨chunks, item⟩ := req
        cases item with
        | none =>
          refine hset s _ (Option.some.inj hs).symm (fun _ _ => rfl) ?_
          show Booked n (some ⟨_, .reading⟩) _ (_ ++ [])
          rw [List.append_nil]
          exact hb
        | some it =>
          have hsent : ∀ s', part s' (sent n [.insert (.request s ⟨chunks, some it⟩)]) = if it.table = n ∧ s = s' then [it.key] else [] := by
            intro s'
            by_cases hn : it.table = n
            · have : sent n [.insert (.request s ⟨chunks, some it⟩)] = [(s, it.key)] := by simp [sent, hn]
              rw [this, part_one]; simp [hn]
            · have : sent n [.insert (.request s ⟨chunks, some it⟩)] = [] := by simp [sent, hn]
              rw [this, part_nil]; simp [hn]
          refine hset s _ (Option.some.inj hs).symm (fun s' hs' => by rw [hsent, if_neg (fun g => hs' g.2.symm)]) ?_
          rw [hsent]
          have hpre : ∀ z, part s ins <+: part s (sent n evs) ++ z := fun z => by rw [hb]; exact List.prefix_append _ _
          unfold SyncServer.take
          simp only
          split
          · exact hpre _
          · split
            · refine ⟨rfl, fun hn => ⟨?_, ?_⟩, fun hn => ?_⟩
              · exact hq.new s ⟨chunks, some it⟩ it (by simp) rfl hn
              · simp [hn, hb]
              · simp [hn, hb]
            · exact hpre _
      · cases hs
    | eof s =>
      simp only at hs
      split at hs
      · rename_i cache hx
        have hb := h.booked s
        have hx : v.inserts.get? s = some ⟨cache, .reading⟩ := hx
        rw [hx] at hb
        refine hset s _ (Option.some.inj hs).symm (fun _ _ => rfl) ?_
        show _ = _ ++ []
        rw [List.append_nil]
        exact hb
      · cases hs
    | insert s now d =>
      simp only at hs
      split at hs
      · rename_i cache it item waiting hx
        have hb := h.booked s
        have hx : v.inserts.get? s = some ⟨cache, .inserting it item waiting⟩ := hx
        rw [hx] at hb
        obtain ⟨hk, hb1, hb2⟩ := hb
        split at hs
        · cases hs
        · rename_i t0 ht0
          have ht0 : v.tables.get? it.table = some t0 := ht0
          have hs := Option.some.inj hs
          generalize hop : (if waiting then Op.insertResume item now d else Op.insert item now d) = op at hs
          have hitem : Op.item op = some (item, now) := by subst hop; split <;> rfl
          -- the outcome for the stream
          have out : ∀ (ins' : List (Nat × Key)) (hT : ∃ t b, (v.tables.insert it.table (t0.step op).1).get? n = some t ∧ Ledger m cap t b ins' giv)
              (hI : ∀ s', s' ≠ s → part s' ins' = part s' ins) (hC : ∀ s k, (s, n, k) ∈ v.confirmed → (s, k) ∈ ins')
              (hD : (t0.step op).2 = .ok .done → part s ins' = part s (sent n evs) ∧ (it.table = n → it.key ∈ part s ins'))
              (hB : (t0.step op).2 ≠ .ok .done → ins' = ins),
              Books m cap n (evs ++ [.insert (.insert s now d)]) { v with tables := x.tables, inserts := x.streams, dead := x.dead, confirmed := x.confirmed } ins' giv := by
            intro ins' hT hI hC hD hB
            have fin : ∀ y, x = SyncServer.setStream { v.asServer with tables := v.tables.insert it.table (t0.step op).1 } s y →
                Booked n (some y) (part s ins') (part s (sent n evs)) →
                Books m cap n (evs ++ [.insert (.insert s now d)]) { v with tables := x.tables, inserts := x.streams, dead := x.dead, confirmed := x.confirmed } ins' giv := by
              intro y hxy hby
              subst hxy
              refine h.upd s hT (fun s' hs' => ⟨?_, hI s' hs', rfl⟩) ?_ hC fun q => rfl
              · simp only [SyncServer.setStream, asServer, AMap.get?_insert, if_neg hs']
              · simp only [SyncServer.setStream, asServer, AMap.get?_insert_self]
                show Booked n (some y) _ (_ ++ [])
                rw [List.append_nil]; exact hby
            unfold SyncServer.inserted at hs
            split at hs
            · rename_i hr
              obtain ⟨e1, e2⟩ := hD hr
              split at hs
              · exact fin _ hs.symm ⟨e1, e2⟩
              · unfold SyncServer.release at hs
                split at hs
                · subst hs; cases hd
                · exact fin _ hs.symm e1
            · rename_i hr
              rw [hB (by rw [hr]; simp)] at fin ⊢
              exact fin _ hs.symm ⟨hk, hb1, hb2⟩
            · subst hs; cases hd
            · rename_i c hr
              rw [hB (by rw [hr]; simp)] at fin ⊢
              refine fin _ hs.symm ?_
              show _ <+: _
              by_cases hn : it.table = n
              · rw [(hb1 hn).2]; exact List.prefix_append _ _
              · rw [hb2 hn]; exact List.prefix_rfl
            · subst hs; cases hd
          by_cases hn : it.table = n
          · obtain ⟨z, hp⟩ := hb1 hn
            rw [hn, ht] at ht0
            cases ht0
            have hf : item.key ∉ ins.map Prod.snd := by rw [hk]; exact h.fresh hu hp
            rcases hL.insert hcap hitem z s hf with ⟨g1, b', g2⟩ | ⟨g1, b', g2⟩
            · refine ⟨_, out _ ⟨_, b', by rw [hn, AMap.get?_insert_self], g2⟩ (fun s' hs' => ?_) (fun s k hc => ?_) (fun _ => ⟨?_, fun _ => ?_⟩) (fun hne => absurd g1 hne)⟩
              · rw [part_append, part_one, if_neg (Ne.symm hs'), List.append_nil]
              · exact List.mem_append_left _ (h.confirmed s k hc)
              · rw [part_append, part_one, if_pos rfl, hk, hp]
              · rw [part_append, part_one, if_pos rfl, hk]; simp
            · refine ⟨_, out _ ⟨_, b', by rw [hn, AMap.get?_insert_self], g2⟩ (fun _ _ => rfl) h.confirmed (fun hr => ?_) (fun _ => rfl)⟩
              rcases g1 with g1 | ⟨c, g1⟩ <;> rw [g1] at hr <;> cases hr
          · exact ⟨ins, out ins ⟨t, b, by rw [AMap.get?_insert, if_neg (Ne.symm hn)]; exact ht, hL⟩ (fun _ _ => rfl) h.confirmed
              (fun _ => ⟨hb2 hn, fun g => absurd g hn⟩) (fun _ => rfl)⟩
      · cases hs
    | confirm s ok =>
      simp only at hs
      split at hs
      · rename_i cache it hx
        have hb := h.booked s
        have hx : v.inserts.get? s = some ⟨cache, .confirming it⟩ := hx
        rw [hx] at hb
        obtain ⟨hb1, hb2⟩ := hb
        split at hs
        · have hs := Option.some.inj hs
          unfold SyncServer.release at hs
          split at hs
          · subst hs; cases hd
          · subst hs
            refine ⟨ins, h.upd s ⟨t, b, ht, hL⟩ (fun s' hs' => ⟨?_, rfl, rfl⟩) ?_ (fun s' k hc => ?_) fun q => rfl⟩
            · simp only [SyncServer.setStream, asServer, AMap.get?_insert, if_neg hs']
            · simp only [SyncServer.setStream, asServer, AMap.get?_insert_self]
              show _ = _ ++ []
              rw [List.append_nil]; exact hb1
            · have hc : (s', n, k) ∈ v.confirmed ++ [(s, it.table, it.key)] := hc
              rcases List.mem_append.mp hc with hc | hc
              · exact h.confirmed s' k hc
              · rw [List.mem_singleton, Prod.mk.injEq, Prod.mk.injEq] at hc
                obtain ⟨rfl, hn, rfl⟩ := hc
                exact mem_part.mp (hb2 hn.symm)
        · refine hset s _ (Option.some.inj hs).symm (fun _ _ => rfl) ?_
          show _ <+: _ ++ []
          rw [List.append_nil, hb1]
          exact List.prefix_rfl
      · cases hs
    | table name op => cases he

/-- A step of a sample stream. -/
theorem sample_step {w : Wire} {e : SyncSampler.Event} {x : SyncSampler} (hcap : 0 < cap) (h : Books m cap n evs v ins giv) (he : ofSampleStream e = true)
    (hs : v.asSampler.step w e = some x) (hd : x.dead = false) :
    ∃ giv', Books m cap n (evs ++ [.sample e]) { v with tables := x.tables, samples := x.streams, dead := x.dead } ins giv' := by
  obtain ⟨t, b, ht, hL⟩ := h.table
  have hbk : ∀ s, Booked n (v.inserts.get? s) (part s ins) (part s (sent n (evs ++ [.sample e]))) := fun s => by
    rw [sent_snoc, part_append]
    show Booked _ _ _ (_ ++ [])
    rw [List.append_nil]
    exact h.booked s
  have hgot : ∀ {ss : AMap Nat SampStream} {q : Nat} {y : SampStream} (q' : Nat),
      SyncSampler.got ⟨x.tables, ss.insert q y, x.dead⟩ q' = if q' = q then y.got else SyncSampler.got ⟨x.tables, ss, x.dead⟩ q' := by
    intro ss q y q'
    simp only [SyncSampler.got, AMap.get?_insert]
    split <;> rfl
  have hset : ∀ (q : Nat) (y : SampStream), x = v.asSampler.setStream q y → y.got = v.got q →
      ∃ giv', Books m cap n (evs ++ [.sample e]) { v with tables := x.tables, samples := x.streams, dead := x.dead } ins giv' := by
    intro q y hx hy
    subst hx
    refine ⟨giv, ⟨t, b, ht, hL⟩, hbk, h.confirmed, fun q' => ?_⟩
    rw [h.got q']
    congr 1
    show _ = SyncSampler.got ⟨_, v.samples.insert q y, _⟩ q'
    rw [hgot]
    split
    · rename_i hq; subst hq; exact hy.symm
    · rfl
  have hsec : ∀ (q : Nat) (y : SampStream) (r : SampleReq) (d c : Int) (dl : Duration) (op : Op), y.got = v.got q →
      (∃ b ds, op = .sample b ds ∨ op = .sampleResume b ds) → SyncSampler.section_ w v.asSampler q y r d c dl op = some x →
      ∃ giv', Books m cap n (evs ++ [.sample e]) { v with tables := x.tables, samples := x.streams, dead := x.dead } ins giv' := by
    intro q y r d c dl op hy hop hse
    unfold SyncSampler.section_ at hse
    split at hse
    · cases hse
    · rename_i t0 ht0
      have ht0 : v.tables.get? r.table = some t0 := ht0
      have hse := Option.some.inj hse
      have out : ∀ (giv' : List (Nat × Sampled)) (hT : ∃ t b, (v.tables.insert r.table (t0.step op).1).get? n = some t ∧ Ledger m cap t b ins giv')
          (hS : ∀ l, (t0.step op).2 = .ok (.samples l) → giv' = giv ++ if r.table = n then l.map (q, ·) else [])
          (hB : (∀ l, (t0.step op).2 ≠ .ok (.samples l)) → giv' = giv),
          Books m cap n (evs ++ [.sample e]) { v with tables := x.tables, samples := x.streams, dead := x.dead } ins giv' := by
        intro giv' hT hS hB
        have fin : ∀ y', x = SyncSampler.setStream { v.asSampler with tables := v.tables.insert r.table (t0.step op).1 } q y' →
            (∀ q', part q' giv' = takenFrom n (if q' = q then y'.got else v.got q')) →
            Books m cap n (evs ++ [.sample e]) { v with tables := x.tables, samples := x.streams, dead := x.dead } ins giv' := by
          intro y' hx hy'
          subst hx
          refine ⟨hT, hbk, h.confirmed, fun q' => ?_⟩
          rw [hy' q']
          congr 1
          show _ = SyncSampler.got ⟨_, v.samples.insert q y', _⟩ q'
          rw [hgot]
          rfl
        have same : ∀ q', giv' = giv → part q' giv' = takenFrom n (if q' = q then y.got else v.got q') := by
          intro q' hg
          rw [hg, h.got q']
          split
          · rename_i hq; subst hq; rw [hy]
          · rfl
        unfold SyncSampler.sampled at hse
        split at hse
        · rename_i l hr
          refine fin _ hse.symm fun q' => ?_
          rw [hS l hr, part_append, h.got q']
          by_cases hq : q' = q
          · subst hq
            rw [if_pos rfl, takenFrom_append, takenFrom_tag, hy]
            congr 1
            split
            · rw [part_tag, if_pos rfl]
            · rfl
          · rw [if_neg hq]
            split
            · rw [part_tag, if_neg (Ne.symm hq), List.append_nil]
            · rw [part_nil, List.append_nil]
        · rename_i hr
          exact fin _ hse.symm fun q' => same q' (hB fun l => by rw [hr]; simp)
        · subst hse; cases hd
        · rename_i c hr
          exact fin _ hse.symm fun q' => same q' (hB fun l => by rw [hr]; simp)
        · subst hse; cases hd
      by_cases hn : r.table = n
      · rw [hn, ht] at ht0
        cases ht0
        rcases hL.sample hcap (.inl hop) q with ⟨l, g1, b', g2⟩ | ⟨g1, b', g2⟩
        · refine ⟨_, out _ ⟨_, b', by rw [hn, AMap.get?_insert_self], g2⟩ (fun l' hl' => ?_) (fun hno => absurd g1 (hno l))⟩
          rw [g1] at hl'
          cases hl'
          rw [if_pos hn]
        · refine ⟨_, out _ ⟨_, b', by rw [hn, AMap.get?_insert_self], g2⟩ (fun l' hl' => ?_) (fun _ => rfl)⟩
          rcases g1 with g1 | ⟨c, g1⟩ <;> rw [g1] at hl' <;> cases hl'
      · exact ⟨giv, out giv ⟨t, b, by rw [AMap.get?_insert, if_neg (Ne.symm hn)]; exact ht, hL⟩ (fun l _ => by rw [if_neg hn, List.append_nil]) (fun _ => rfl)⟩
  have hold : ∀ {q : Nat} {y : SampStream}, v.asSampler.streams.get? q = some y → y.got = v.got q := by
    intro q y hy
    simp only [Service.got, SyncSampler.got, hy, Option.map_some, Option.getD_some]
  unfold SyncSampler.step at hs
  split at hs
  · cases hs
  · cases e with
    | start q =>
      simp only at hs
      split at hs
      · cases hs
      · rename_i hno
        refine hset q _ (Option.some.inj hs).symm ?_
        have hn : v.asSampler.streams.get? q = none := by simpa [AMap.contains] using hno
        simp only [Service.got, SyncSampler.got, hn, Option.map_none, Option.getD_none]
    | request q r =>
      simp only at hs
      split at hs
      · rename_i hx
        refine hset q _ (Option.some.inj hs).symm ?_
        rw [← hold hx]
        unfold SyncSampler.take
        simp only
        repeat' split
        all_goals rfl
      · cases hs
    | eof q =>
      simp only at hs
      split at hs
      · rename_i hx
        exact hset q _ (Option.some.inj hs).symm (hold hx :)
      · cases hs
    | cancel q =>
      simp only at hs
      split at hs
      · rename_i y hx
        exact hset q _ (Option.some.inj hs).symm (hold hx :)
      · cases hs
    | next q =>
      simp only at hs
      split at hs
      · rename_i hx
        split at hs
        · exact hset q _ (Option.some.inj hs).symm (hold hx :)
        · cases hs
      · cases hs
    | sample q now ds =>
      simp only at hs
      split at hs
      · rename_i hx
        split at hs
        · cases hs
        · exact hsec q _ _ _ _ _ _ (hold hx :) ⟨_, _, .inl rfl⟩ hs
      · rename_i hx
        exact hsec q _ _ _ _ _ _ (hold hx :) ⟨_, _, .inr rfl⟩ hs
      · cases hs
    | timeout q now =>
      simp only at hs
      split at hs
      · rename_i hx
        split at hs
        · exact hset q _ (Option.some.inj hs).symm (hold hx :)
        · cases hs
      · cases hs
    | write q ok =>
      simp only at hs
      split at hs
      · rename_i hx
        split at hs
        · exact hset q _ (Option.some.inj hs).symm (hold hx :)
        · exact hset q _ (Option.some.inj hs).symm (hold hx :)
      · cases hs
    | table name op => cases he

theorem step {w : Wire} {v' : Service} {e : Event} (hcap : 0 < cap) (h : Books m cap n evs v ins giv)
    (hu : ((sent n evs).map Prod.snd).Nodup) (hq : AsQueue n (evs ++ [e])) (hs : v.step w e = some v') (hd : v'.dead = false) :
    ∃ ins' giv', Books m cap n (evs ++ [e]) v' ins' giv' := by
  cases e with
  | insert e =>
    simp only [Service.step] at hs
    split at hs
    · rename_i he
      split at hs
      · cases hs
      · rename_i x hx
        cases hs
        obtain ⟨ins', hB⟩ := h.insert_step hcap he hu hq hx hd
        exact ⟨ins', giv, hB⟩
    · cases hs
  | sample e =>
    simp only [Service.step] at hs
    split at hs
    · rename_i he
      split at hs
      · cases hs
      · rename_i x hx
        cases hs
        obtain ⟨giv', hB⟩ := h.sample_step hcap he hx hd
        exact ⟨ins, giv', hB⟩
    · cases hs
  | unary u =>
    simp only [Service.step] at hs
    split at hs
    · cases hs
    · cases hs
      obtain ⟨t, b, ht, hL⟩ := h.table
      have hbk : ∀ s, Booked n (v.inserts.get? s) (part s ins) (part s (sent n (evs ++ [.unary u]))) := fun s => by
        rw [sent_snoc, part_append]
        show Booked _ _ _ (_ ++ [])
        rw [List.append_nil]
        exact h.booked s
      unfold Service.unary
      split
      · exact ⟨ins, giv, ⟨t, b, ht, hL⟩, hbk, h.confirmed, h.got⟩
      · rename_i t0 ht0
        by_cases hn : u.table = n
        · rw [hn, ht] at ht0
          cases ht0
          have hop : u.op = .close ∨ ∃ us, u.op = .mutate us [] := by
            cases u with
            | mutate a us ds =>
              cases hn
              have := hq.deletes us ds (by simp [Unary.table])
              subst this
              exact .inr ⟨us, rfl⟩
            | reset a => cases hn; exact absurd (by simp [Unary.table]) hq.reset
            | close a => exact .inl rfl
          obtain ⟨b', g1, g2⟩ := hL.call hcap hop
          exact ⟨ins, giv, ⟨_, b', by simp only [hn, AMap.get?_insert_self], g1⟩, hbk, h.confirmed, h.got⟩
        · exact ⟨ins, giv, ⟨t, b, by simp only [AMap.get?_insert, if_neg (Ne.symm hn)]; exact ht, hL⟩, hbk, h.confirmed, h.got⟩

end Books

theorem AsQueue.left {n : String} {a b : List Event} (h : AsQueue n (a ++ b)) : AsQueue n a :=
  ⟨fun us ds hm => h.deletes us ds (List.mem_append_left _ hm), fun hm => h.reset (List.mem_append_left _ hm),
    fun s r it hm => h.new s r it (List.mem_append_left _ hm)⟩

theorem sent_append (n : String) (a b : List Event) : sent n (a ++ b) = sent n a ++ sent n b := by
  simp [sent, List.filterMap_append]

theorem step_dead {w : Wire} {v v' : Service} {e : Event} (h : v.step w e = some v') : v.dead = false := by
  cases e with
  | insert e =>
    simp only [Service.step] at h
    split at h
    · split at h
      · cases h
      · rename_i hx
        unfold SyncServer.step at hx
        split at hx
        · cases hx
        · rename_i hd; simpa [asServer] using hd
    · cases h
  | sample e =>
    simp only [Service.step] at h
    split at h
    · split at h
      · cases h
      · rename_i hx
        unfold SyncSampler.step at hx
        split at hx
        · cases hx
        · rename_i hd; simpa [asSampler] using hd
    · cases h
  | unary u =>
    simp only [Service.step] at h
    split at h
    · cases h
    · rename_i hd; simpa using hd

theorem books_run {w : Wire} {m : Discipline} {cap : Nat} {n : String} (hcap : 0 < cap) {v : Service} (hd : v.dead = false) :
    ∀ (post pre : List Event) (x : Service) (ins : List (Nat × Key)) (giv : List (Nat × Sampled)), ((sent n (pre ++ post)).map Prod.snd).Nodup → AsQueue n (pre ++ post) →
      Books m cap n pre x ins giv → x.run w post = some v → ∃ ins giv, Books m cap n (pre ++ post) v ins giv
  | [], pre, x, ins, giv, _, _, h, hr => by
    cases hr
    rw [List.append_nil]
    exact ⟨ins, giv, h⟩
  | e :: post, pre, x, ins, giv, hu, hq, h, hr => by
    simp only [run] at hr
    split at hr
    · cases hr
    · rename_i x' hs
      have he : pre ++ e :: post = (pre ++ [e]) ++ post := by simp
      rw [he] at hu hq ⊢
      have hd' : x'.dead = false := by
        cases post with
        | nil => cases hr; exact hd
        | cons e' post =>
          simp only [run] at hr
          split at hr
          · cases hr
          · rename_i hs'; exact step_dead hs'
      have hu1 : ((sent n pre).map Prod.snd).Nodup := by
        rw [sent_append, sent_append, List.map_append, List.map_append] at hu
        exact (List.nodup_append.mp (List.nodup_append.mp hu).1).1
      obtain ⟨ins', giv', h'⟩ := h.step hcap hu1 hq.left hs hd'
      exact books_run hcap hd post (pre ++ [e]) x' ins' giv' hu hq h' hr

/-- The books of a server that has been run. -/
theorem books {w : Wire} {m : Discipline} {cap : Nat} {hcap : 0 < cap} {n : String} {cfgs : AMap String Config} {evs : List Event} {v : Service}
    (hr : (Service.init (newTables cfgs)).run w evs = some v) (hd : v.dead = false) (hc : cfgs.get? n = some (m.config cap hcap))
    (hu : ((sent n evs).map Prod.snd).Nodup) (hq : AsQueue n evs) : ∃ ins giv, Books m cap n evs v ins giv := by
  have hn : (newTables cfgs).get? n = some (m.config cap hcap).init := by
    rw [← AMap.mem_entries_iff] at hc ⊢
    exact List.mem_map.mpr ⟨_, hc, rfl⟩
  have h0 : Books m cap n [] (Service.init (newTables cfgs)) [] [] :=
    ⟨⟨_, _, hn, Ledger.make m hcap⟩, fun s => (show [] = [] ∧ [] = [] from ⟨rfl, rfl⟩), fun s k h => (by cases h), fun q => rfl⟩
  exact books_run hcap hd evs [] _ [] [] hu hq h0 hr

end Service
end Verif
