import Verif.Spec.Queue
import Verif.Model.PyLimiters
import Verif.Proofs.TableReach
/-
Tables built by `Table.queue` and `Table.stack` refine the abstract buffer.
-/
namespace Verif
open Table (Op Inv Tracks)
open Spec (Buf Discipline Answer QueueOp)

/-- The selector kind of a discipline. -/
def Spec.Discipline.kind : Discipline → SelKind
  | .queue => .fifo
  | .stack => .lifo

/-- The keys of a FIFO or LIFO selector, next one first. -/
def Sel.order : Sel → List Key
  | .fifo s | .lifo s => s.nodes.map Prod.snd
  | _ => []

namespace ListSel

theorem delete_order {fwd s b t} (h : R fwd s b t) (k : Key) :
    (s.delete k).1.nodes.map Prod.snd = (s.nodes.map Prod.snd).filter (· ≠ k) := by
  unfold ListSel.delete
  cases hk : s.iters.get? k with
  | none =>
    simp only
    rw [List.filter_eq_self.mpr]
    intro k' hk'
    obtain ⟨⟨id, x⟩, hm, rfl⟩ := List.mem_map.mp hk'
    simp only [ne_eq, decide_eq_true_eq]
    rintro rfl
    have := (h.iters x id).mpr hm
    rw [hk] at this; simp at this
  | some id =>
    simp only
    rw [List.filter_map]
    congr 1
    apply List.filter_congr
    intro n hn
    have h1 := (h.iters k id).mp hk
    simp only [ne_eq, Function.comp]
    by_cases he : n.1 = id
    · have : n.2 = k := h.inj id _ _ (by rw [← he]; exact hn) h1
      simp [he, this]
    · have : n.2 ≠ k := by
        intro hc
        have := (h.iters k n.1).mpr (by rw [← hc]; exact hn)
        rw [hk] at this; simp at this; exact he this.symm
      simp [he, this]

theorem absent {fwd s b t} (h : R fwd s b t) {k : Key} (hk : b k = none) : s.iters.get? k = none := by
  have := h.get_isSome k
  rw [hk] at this
  cases hg : s.iters.get? k <;> simp_all

end ListSel

theorem Sel.Inv.order_insert {m : Discipline} {s b τ} (h : Sel.Inv m.kind s b τ) {k : Key} (hk : b k = none) (p : Pri) :
    (s.apply (.insert k p)).1.order = (match m with | .queue => s.order ++ [k] | .stack => k :: s.order) := by
  cases m <;> cases s <;> simp only [Sel.Inv, Discipline.kind] at h
  · simp [Sel.apply, ListSel.applyFifo, ListSel.insertBack, ListSel.absent h hk, Sel.order]
  · simp [Sel.apply, ListSel.applyLifo, ListSel.insertFront, ListSel.absent h hk, Sel.order]

theorem Sel.Inv.order_delete {m : Discipline} {s b τ} (h : Sel.Inv m.kind s b τ) (k : Key) :
    (s.apply (.delete k)).1.order = s.order.filter (· ≠ k) := by
  cases m <;> cases s <;> simp only [Sel.Inv, Discipline.kind] at h
  · exact ListSel.delete_order h k
  · exact ListSel.delete_order h k

theorem Sel.Inv.order_update {m : Discipline} {s b τ} (h : Sel.Inv m.kind s b τ) (k : Key) (p : Pri) :
    (s.apply (.update k p)).1.order = s.order := by
  cases m <;> cases s <;> simp only [Sel.Inv, Discipline.kind] at h <;>
    simp only [Sel.apply, ListSel.applyFifo, ListSel.applyLifo, ListSel.update] <;> split <;> rfl

theorem Sel.Inv.order_clear {m : Discipline} {s b τ} (h : Sel.Inv m.kind s b τ) :
    (s.apply .clear).1.order = [] := by
  cases m <;> cases s <;> simp only [Sel.Inv, Discipline.kind] at h <;>
    simp [Sel.apply, ListSel.applyFifo, ListSel.applyLifo, ListSel.clear, Sel.order]

theorem Sel.Inv.order_sample {m : Discipline} {s b τ} (h : Sel.Inv m.kind s b τ) {k : Key} {l : List Key}
    (ho : s.order = k :: l) (d : Draw) : s.sample d = .ok (k, 1) := by
  cases m <;> cases s <;> simp only [Sel.Inv, Discipline.kind] at h <;>
  · rename_i s
    simp only [Sel.order] at ho
    simp only [Sel.sample, ListSel.sample]
    cases hn : s.nodes with
    | nil => simp [hn] at ho
    | cons a l' => simp [hn] at ho; simp [ho.1]

/-- The table built by `Table.queue` or `Table.stack`. -/
def Spec.Discipline.config (m : Discipline) (cap : Nat) (h : 0 < cap) : Config :=
  match m with
  | .queue => Py.tableQueue cap h
  | .stack => Py.tableStack cap h

/-- The table represents the buffer. -/
structure QInv (m : Discipline) (cap : Nat) (t : Table) (b : Buf) : Prop where
  inv : Inv m.kind m.kind t
  ord : t.sampler.order = b.items.map Item.key
  tracks : Tracks b.items t.data
  fresh : ∀ i ∈ b.items, i.timesSampled = 0
  smp : t.limiter.samples = t.limiter.deletes
  closed : t.limiter.cancelled = b.closed
  maxSize : t.maxSize = cap
  maxTimes : t.maxTimesSampled = 1
  spi : t.limiter.spi = 1
  minSize : t.limiter.minSize = 1
  minDiff : t.limiter.minDiff = 0
  maxDiff : t.limiter.maxDiff = cap

namespace QInv

variable {m : Discipline} {cap : Nat} {t : Table} {b : Buf}

theorem size (h : QInv m cap t b) : t.data.size = b.items.length := h.tracks.length.symm

theorem okPri (m : Discipline) (p : Pri) : Table.okPri m.kind m.kind p = true := by
  cases m <;> simp [Table.okPri, Discipline.kind, SelKind.accept, Spec.acceptAll]

theorem has_iff (h : QInv m cap t b) (k : Key) : b.has k = t.data.contains k := by
  rw [Bool.eq_iff_iff, AMap.contains, Option.isSome_iff_exists]
  simp only [h.tracks.mem, Buf.has, List.any_eq_true, decide_eq_true_eq]

theorem canInsert (h : QInv m cap t b) (hc : 0 < cap) : t.limiter.canInsert 1 = decide (b.items.length < cap) := by
  have hl := h.inv.lim
  rw [h.size] at hl
  rw [Bool.eq_iff_iff]
  unfold Limiter.canInsert
  rw [h.minSize, h.spi, h.maxDiff, h.smp]
  by_cases h1 : t.limiter.inserts + 1 - t.limiter.deletes ≤ 1
  · simp only [h1, if_true, true_iff, decide_eq_true_eq]; omega
  · simp only [h1, if_false, decide_eq_true_eq]
    rw [Rat.mul_one, ← Rat.intCast_sub, ← Rat.intCast_natCast, Rat.intCast_le_intCast]
    omega

theorem canSample (h : QInv m cap t b) : t.limiter.canSample 1 = decide (b.items.length ≠ 0) := by
  have hl := h.inv.lim
  rw [h.size] at hl
  rw [Bool.eq_iff_iff]
  unfold Limiter.canSample
  rw [h.minSize, h.spi, h.minDiff, h.smp]
  by_cases h1 : t.limiter.inserts - t.limiter.deletes < 1
  · simp only [h1, if_true, Bool.false_eq_true, false_iff, decide_eq_true_eq]; omega
  · simp only [h1, if_false, decide_eq_true_eq]
    rw [Rat.mul_one, ← Rat.intCast_sub, ← Rat.intCast_sub]
    have : (0 : Rat) = ((0 : Int) : Rat) := rfl
    rw [this, Rat.intCast_le_intCast]
    omega

theorem update (h : QInv m cap t b) (k : Key) (p : Pri) (hk : t.data.contains k = true) :
    ∃ t', t.updateItem k p = (t', .ok ()) ∧ QInv m cap t' (b.setPriority k p) := by
  obtain ⟨it, hit⟩ := Option.isSome_iff_exists.mp hk
  obtain ⟨bS, τS, bR, τR, hc⟩ := h.inv.core
  obtain ⟨t', h1, h2, h3, h4, h5, h6, h7, h8, h9, h10, hS, hR⟩ := hc.update hit (okPri m p)
  obtain ⟨t'', g1, g2⟩ := h.inv.update hit (okPri m p)
  rw [h1] at g1
  cases g1
  have hown := hc.own k it hit
  subst hown
  have hmap : (b.setPriority it.key p).items = b.items.map fun j => if j.key = it.key then { it with priority := p } else j := by
    simp only [Buf.setPriority]
    apply List.map_congr_left
    intro j hj
    by_cases hjk : j.key = it.key
    · have := (h.tracks.mem it.key j).mpr ⟨hj, hjk⟩
      rw [hit] at this
      cases this; rfl
    · simp [hjk]
  refine ⟨t', h1, g2.fin, ?_, ?_, ?_, by rw [h4]; exact h.smp, by rw [h4]; exact h.closed, by rw [h6]; exact h.maxSize,
    by rw [h7]; exact h.maxTimes, by rw [h4]; exact h.spi, by rw [h4]; exact h.minSize,
    by rw [h4]; exact h.minDiff, by rw [h4]; exact h.maxDiff⟩
  · rw [hS, hc.samp.order_update, h.ord]
    simp only [Buf.setPriority, List.map_map]
    apply List.map_congr_left
    intro j _
    simp only [Function.comp]; split <;> rfl
  · rw [h3, hmap]
    exact (h.tracks.update (it := it) (p := p) hit).2
  · intro i hi
    simp only [Buf.setPriority, List.mem_map] at hi
    obtain ⟨j, hj, rfl⟩ := hi
    have := h.fresh j hj
    split <;> exact this

theorem insertNew (h : QInv m cap t b) (i : Item) (now : Int) (d : Draw) (hi : i.timesSampled = 0)
    (hk : t.data.contains i.key = false) (hroom : b.items.length < cap) (hcap : 0 < cap) :
    ∃ t', t.insertNew i now d = (t', .ok ()) ∧ QInv m cap t' (b.put m { i with insertedAt := now }) := by
  have hkn : t.data.get? i.key = none := by
    simp only [AMap.contains] at hk
    cases hg : t.data.get? i.key <;> simp_all
  have hcan : t.limiter.canInsert 1 = true := by rw [h.canInsert hcap]; simpa using hroom
  obtain ⟨bS, τS, bR, τR, hc⟩ := h.inv.core
  obtain ⟨t4, h1, h2, h3, h4, h5, h6, h7, h8, h9, hS, hR⟩ := hc.inserted now hkn (okPri m i.priority) d
  obtain ⟨t', v, g1, g2, _⟩ := h.inv.insertNew (now := now) hkn (okPri m i.priority) hcan d
  have hsz : ¬ t4.maxSize < t4.data.size := by
    have := h.size
    rw [h6, h3, AMap.size_insert_of_none _ hkn, h.maxSize]; omega
  rw [if_neg hsz] at h1
  rw [h1] at g1
  cases g1
  have hbS : bS i.key = none := by
    have := hc.isSomeS i.key
    rw [hkn] at this
    cases hb : bS i.key <;> simp_all
  have htr := (h.tracks.insert (i := { i with insertedAt := now }) hkn).2
  refine ⟨_, h1, g2.fin, ?_, ?_, ?_, ?_, ?_, ?_, ?_, ?_, ?_, ?_, ?_⟩
  · show t4.sampler.order = _
    rw [hS, hc.samp.order_insert hbS, h.ord]
    cases m <;> simp [Buf.put]
  · show Tracks _ t4.data
    rw [h3]
    cases m with
    | queue => exact htr
    | stack =>
      refine ⟨?_, ?_⟩
      · intro k it
        rw [htr.mem]
        simp [Buf.put, or_comm]
      · have := htr.nodup
        simp only [Buf.put, List.map_append, List.map_cons, List.map_nil] at this ⊢
        have hp : (b.items.map Item.key ++ [i.key]).Perm (i.key :: b.items.map Item.key) := List.perm_append_singleton _ _
        exact hp.nodup_iff.mp this
  · intro j hj
    cases m <;> simp only [Buf.put, List.mem_append, List.mem_cons, List.not_mem_nil, or_false] at hj
    · rcases hj with hj | rfl
      · exact h.fresh j hj
      · exact hi
    · rcases hj with rfl | hj
      · exact hi
      · exact h.fresh j hj
  · show t4.limiter.insert.samples = t4.limiter.insert.deletes; rw [h4]; exact h.smp
  · show t4.limiter.insert.cancelled = _; rw [h4]; cases m <;> exact h.closed
  · show t4.maxSize = _; rw [h6]; exact h.maxSize
  · show t4.maxTimesSampled = _; rw [h7]; exact h.maxTimes
  · show t4.limiter.insert.spi = _; rw [h4]; exact h.spi
  · show t4.limiter.insert.minSize = _; rw [h4]; exact h.minSize
  · show t4.limiter.insert.minDiff = _; rw [h4]; exact h.minDiff
  · show t4.limiter.insert.maxDiff = _; rw [h4]; exact h.maxDiff

theorem deleteItem_sampler {t t' : Table} {k : Key} {it : Item} (hk : t.data.get? k = some it)
    (h : t.deleteItem k = (t', .ok ())) : t'.sampler = (t.sampler.apply (.delete k)).1 := by
  unfold Table.deleteItem at h
  simp only [hk] at h
  split at h
  · simp at h
  · split at h
    · simp only [Prod.mk.injEq] at h
      rw [← h.1]
    · simp only [Prod.mk.injEq] at h
      rw [← h.1]

theorem sampleOne (h : QInv m cap t b) {i : Item} {l : List Item} (hb : b.items = i :: l) (rl : Bool) (d : Draw) :
    ∃ t' s, { t with limiter := Table.commit t.limiter }.sampleOne rl d = (t', .ok s) ∧
      s.item = { i with timesSampled := 1 } ∧ QInv m cap t' { b with items := l } := by
  have hcan : t.limiter.canSample 1 = true := by rw [h.canSample, hb]; simp
  obtain ⟨bS, τS, bR, τR, hc⟩ := h.inv.core
  have ho : t.sampler.order = i.key :: l.map Item.key := by rw [h.ord, hb]; rfl
  have hs := hc.samp.order_sample ho d
  have hi : t.data.get? i.key = some i := (h.tracks.mem _ _).mpr ⟨by rw [hb]; simp, rfl⟩
  have hz : i.timesSampled = 0 := h.fresh i (by rw [hb]; simp)
  obtain ⟨t', it, pr, gone, h1, h2, hp⟩ := h.inv.sampleOne hcan rl d
  rw [hs] at h2
  simp only [Res.ok.injEq, Prod.mk.injEq] at h2
  have hsamp : t'.sampler = (t.sampler.apply (.delete i.key)).1 := by
    unfold Table.sampleOne at h1
    have hmt := h.maxTimes
    simp only [hs, hi, hz, hmt, Int.zero_add, if_true] at h1
    split at h1
    · rename_i hd
      simp only [Prod.mk.injEq] at h1
      have e := deleteItem_sampler (t' := t') (it := { i with timesSampled := 1 }) (by simp)
        (Prod.ext h1.1 hd)
      exact e
    · simp at h1
    · simp at h1
  have hit : it = i := by
    cases hp with
    | cons _ hm _ =>
      have := hm.2.1
      rw [← h2.1, hi] at this
      cases this; rfl
  subst hit
  have heff : Table.Eff t t' ((t.data.insert it.key (Table.bump it)).erase it.key) (Table.commit t.limiter).delete
      [.sample (Table.bump it), .delete (Table.bump it)] (t.numUniqueSamples + 1) [.delete it.key] := by
    cases hp with
    | cons _ hm hp' =>
      cases hp'
      obtain ⟨_, _, _, hg, he, _⟩ := hm
      rw [hz, h.maxTimes] at hg
      simp only [Int.zero_add, decide_true] at hg
      subst hg
      simpa [hz] using he
  refine ⟨t', _, h1, by simp [Table.bump, hz], hp.fin, ?_, ?_, ?_, ?_, ?_, ?_, ?_, ?_, ?_, ?_, ?_⟩
  · rw [hsamp, hc.samp.order_delete, ho]
    have hn := h.tracks.nodup
    rw [hb] at hn
    simp only [List.map_cons, List.nodup_cons] at hn
    rw [List.filter_cons]
    simp only [ne_eq, not_true_eq_false, decide_false, Bool.false_eq_true, if_false]
    apply List.filter_eq_self.mpr
    intro k hk
    simp only [decide_eq_true_eq]
    rintro rfl
    exact hn.1 hk
  · rw [heff.data]
    have hn := h.tracks.nodup
    rw [hb] at hn
    simp only [List.map_cons, List.nodup_cons] at hn
    refine ⟨?_, hn.2⟩
    intro k j
    rw [AMap.get?_erase, AMap.get?_insert]
    by_cases hk : k = it.key
    · simp only [hk, if_true]
      constructor
      · intro hc; simp at hc
      · rintro ⟨hj, hjk⟩
        exact absurd (List.mem_map.mpr ⟨j, hj, hjk⟩) hn.1
    · simp only [hk, if_false]
      rw [h.tracks.mem, hb]
      constructor
      · rintro ⟨hj, hjk⟩
        rcases List.mem_cons.mp hj with rfl | hj
        · exact absurd hjk.symm hk
        · exact ⟨hj, hjk⟩
      · rintro ⟨hj, hjk⟩; exact ⟨List.mem_cons_of_mem _ hj, hjk⟩
  · intro j hj; exact h.fresh j (by rw [hb]; exact List.mem_cons_of_mem _ hj)
  · rw [heff.limiter]; have := h.smp; simp only [Table.commit, Limiter.delete]; omega
  · rw [heff.limiter]; exact h.closed
  · rw [heff.maxSize]; exact h.maxSize
  · rw [heff.maxTimes]; exact h.maxTimes
  · rw [heff.limiter]; exact h.spi
  · rw [heff.limiter]; exact h.minSize
  · rw [heff.limiter]; exact h.minDiff
  · rw [heff.limiter]; exact h.maxDiff

theorem sampleMore (rl : Bool) (more : Nat) : ∀ {t b} (acc : List Sampled) (ds : Nat → Draw), QInv m cap t b →
    ∃ t' l, t.sampleMore rl acc more ds = (t', .ok (acc ++ l)) ∧
      l.map Sampled.item = (b.items.take more).map (fun i => { i with timesSampled := 1 }) ∧
      QInv m cap t' { b with items := b.items.drop more } := by
  induction more with
  | zero => intro t b acc ds h; exact ⟨t, [], by simp [Table.sampleMore], by simp, by simpa using h⟩
  | succ n ih =>
    intro t b acc ds h
    simp only [Table.sampleMore]
    have hcs := h.canSample
    cases hb : b.items with
    | nil =>
      rw [hb] at hcs
      simp only [Table.maybeCommit_none.mpr (by simpa using hcs)]
      refine ⟨t, [], by simp, by simp, ?_⟩
      have : ({ b with items := [] } : Buf) = b := by rw [← hb]
      simpa [this] using h
    | cons i l =>
      rw [hb] at hcs
      simp only [Table.maybeCommit_some.mpr ⟨by simpa using hcs, rfl⟩]
      obtain ⟨t1, s, h1, h2, h3⟩ := h.sampleOne hb rl (ds 0)
      obtain ⟨t2, l', g1, g2, g3⟩ := ih (acc ++ [s]) (fun i => ds (i + 1)) h3
      simp only [h1, g1]
      exact ⟨t2, s :: l', by simp, by simp [h2, g2], by simpa using g3⟩

theorem sampleLoop (h : QInv m cap t b) (hb : b.items.length ≠ 0) (rl : Bool) (n : Nat) (ds : Nat → Draw) :
    ∃ t' l, { t with limiter := Table.commit t.limiter }.sampleLoop rl n ds = (t', .ok (.samples l)) ∧
      Spec.answer (.ok (.samples l)) = (b.deliver (max 1 n)).2 ∧ QInv m cap t' (b.deliver (max 1 n)).1 := by
  cases hi : b.items with
  | nil => simp [hi] at hb
  | cons i l =>
    obtain ⟨t1, s, h1, h2, h3⟩ := h.sampleOne hi rl (ds 0)
    obtain ⟨t2, l', g1, g2, g3⟩ := sampleMore rl (n - 1) [s] (fun i => ds (i + 1)) h3
    have hmax : max 1 n = (n - 1) + 1 := by omega
    refine ⟨t2, s :: l', by simp only [Table.sampleLoop, h1, g1]; rfl, ?_, ?_⟩
    · simp [Spec.answer, Buf.deliver, hi, hmax, h2, g2]
    · simp only [Buf.deliver, hi, hmax, List.drop_succ_cons]; exact g3

theorem updateAll (us : List (Key × Pri)) : ∀ {t b}, QInv m cap t b →
    ∃ t', t.updateAll us = (t', .ok ()) ∧ QInv m cap t' (b.setPriorities us) := by
  induction us with
  | nil => intro t b h; exact ⟨t, rfl, h⟩
  | cons u us ih =>
    intro t b h
    simp only [Table.updateAll]
    cases hk : t.data.contains u.1 with
    | true =>
      obtain ⟨t1, h1, h2⟩ := h.update u.1 u.2 hk
      obtain ⟨t2, g1, g2⟩ := ih h2
      simp only [h1, g1]
      exact ⟨t2, rfl, g2⟩
    | false =>
      have hn : t.data.get? u.1 = none := by
        simp only [AMap.contains] at hk
        cases hg : t.data.get? u.1 <;> simp_all
      have e : t.updateItem u.1 u.2 = (t, .ok ()) := by simp [Table.updateItem, hn]
      obtain ⟨t2, g1, g2⟩ := ih h
      simp only [e, g1]
      refine ⟨t2, rfl, ?_⟩
      have : b.setPriority u.1 u.2 = b := by
        simp only [Buf.setPriority]
        have : b.items.map (fun j => if j.key = u.1 then { j with priority := u.2 } else j) = b.items := by
          conv => rhs; rw [← List.map_id b.items]
          apply List.map_congr_left
          intro j hj
          have : j.key ≠ u.1 := by
            intro hc
            have := (h.tracks.mem _ _).mpr ⟨hj, hc⟩
            rw [hn] at this; simp at this
          simp [this]
        rw [this]
      simp only [Buf.setPriorities, List.foldl_cons, this]
      exact g2

theorem insertResume (h : QInv m cap t b) (hcap : 0 < cap) (i : Item) (now : Int) (d : Draw) (hi : i.timesSampled = 0) :
    QInv m cap (t.step (.insertResume i now d)).1 (b.step m cap (.insertResume i now d)).1 ∧
    Spec.answer (t.step (.insertResume i now d)).2 = (b.step m cap (.insertResume i now d)).2 := by
  simp only [Table.step, Table.insertResume, Limiter.awaitInsert, h.closed, h.canInsert hcap, Buf.step]
  by_cases hcl : b.closed = true
  · simp only [hcl, if_true]; exact ⟨h, rfl⟩
  · simp only [hcl, if_false]
    by_cases hroom : b.items.length < cap
    · simp only [hroom, decide_true, if_true, Buf.accept, h.has_iff]
      cases hk : t.data.contains i.key with
      | true =>
        obtain ⟨t', h1, h2⟩ := h.update i.key i.priority hk
        simp only [if_true, h1, Table.reply]; exact ⟨h2, rfl⟩
      | false =>
        obtain ⟨t', h1, h2⟩ := h.insertNew i now d hi hk hroom hcap
        simp only [h1, Table.reply]; exact ⟨h2, rfl⟩
    · simp only [hroom, decide_false]; exact ⟨h, rfl⟩

theorem sampleResume (h : QInv m cap t b) (n : Nat) (ds : Nat → Draw) :
    QInv m cap (t.step (.sampleResume n ds)).1 (b.step m cap (.sampleResume n ds)).1 ∧
    Spec.answer (t.step (.sampleResume n ds)).2 = (b.step m cap (.sampleResume n ds)).2 := by
  have ha : t.limiter.awaitSample =
      if b.closed then .cancelled else if b.items.length = 0 then .wait else .proceed := by
    simp only [Limiter.awaitSample, h.closed, h.canSample]
    by_cases hne : b.items.length = 0 <;> simp [hne]
  by_cases hcl : b.closed = true
  · rw [if_pos hcl] at ha
    simp only [Table.step, Table.sampleResume, ha, Buf.step, hcl, if_true]; exact ⟨h, rfl⟩
  · rw [if_neg hcl] at ha
    by_cases hne : b.items.length = 0
    · rw [if_pos hne] at ha
      simp only [Table.step, Table.sampleResume, ha, Buf.step, hcl, hne, if_true]; exact ⟨h, rfl⟩
    · rw [if_neg hne] at ha
      obtain ⟨t', l, h1, h2, h3⟩ := h.sampleLoop hne true n ds
      simp only [Table.commit] at h1
      simp only [Table.step, Table.sampleResume, ha, Buf.step, hcl, hne, if_false, h1]
      exact ⟨h3, h2⟩

/-- One step of the table is one step of the buffer. -/
theorem step (h : QInv m cap t b) (hcap : 0 < cap) (op : Op) (hop : QueueOp op) :
    QInv m cap (t.step op).1 (b.step m cap op).1 ∧ Spec.answer (t.step op).2 = (b.step m cap op).2 := by
  cases op with
  | insert i now d =>
    by_cases hv : Table.itemValid i = true
    · cases hk : t.data.contains i.key with
      | true =>
        obtain ⟨t', h1, h2⟩ := h.update i.key i.priority hk
        simp only [Table.step, Table.insertOrAssign, hv, hk, h1, Table.reply, Buf.step, h.has_iff]
        exact ⟨h2, rfl⟩
      | false =>
        obtain ⟨h1, h2⟩ := h.insertResume hcap i now d hop
        have e : t.step (.insert i now d) = t.step (.insertResume i now d) := by
          simp [Table.step, Table.insertOrAssign, hv, hk]
        have e' : b.step m cap (.insert i now d) = b.step m cap (.insertResume i now d) := by
          simp [Buf.step, hv, h.has_iff, hk, Buf.accept]
        rw [e, e']; exact ⟨h1, h2⟩
    · simp only [Table.step, Table.insertOrAssign, hv, Buf.step]; exact ⟨h, rfl⟩
  | insertResume i now d => exact h.insertResume hcap i now d hop
  | workerInsert i now d =>
    simp only [Table.step, Table.workerInsert, h.canInsert hcap, Buf.step]
    by_cases hroom : b.items.length < cap
    · simp only [hroom, decide_true, if_true, Buf.accept, h.has_iff, Table.insertInternal]
      cases hk : t.data.contains i.key with
      | true =>
        obtain ⟨t', h1, h2⟩ := h.update i.key i.priority hk
        simp only [if_true, h1, Table.reply]; exact ⟨h2, rfl⟩
      | false =>
        obtain ⟨t', h1, h2⟩ := h.insertNew i now d hop hk hroom hcap
        simp only [h1, Table.reply]; exact ⟨h2, rfl⟩
    · simp only [hroom, decide_false]; exact ⟨h, rfl⟩
  | mutate us ds =>
    simp only [QueueOp] at hop
    subst hop
    obtain ⟨t', h1, h2⟩ := QInv.updateAll us h
    simp only [Table.step, Table.mutateItems, Table.deleteAll, h1, Table.reply, Buf.step]
    exact ⟨h2, rfl⟩
  | sample n ds =>
    by_cases hne : b.items.length = 0
    · have hcs := h.canSample
      rw [hne] at hcs
      simp only [Table.step, Table.sampleBatch, Table.maybeCommit_none.mpr (by simpa using hcs), Table.sampleResume,
        Limiter.awaitSample, h.closed, Buf.step, hcs, hne]
      by_cases hcl : b.closed = true
      · simp only [hcl, if_true]; exact ⟨h, rfl⟩
      · simp [hcl]; exact ⟨h, rfl⟩
    · have hcs := h.canSample
      simp only [hne, ne_eq, not_false_eq_true, decide_true] at hcs
      obtain ⟨t', l, h1, h2, h3⟩ := h.sampleLoop hne false n ds
      simp only [Table.step, Table.sampleBatch, Table.maybeCommit_some.mpr ⟨hcs, rfl⟩, h1, Buf.step, hne, if_false]
      exact ⟨h3, h2⟩
  | sampleResume n ds => exact h.sampleResume n ds
  | workerSample rl d =>
    simp only [Table.step, Table.workerSample, Buf.step]
    have hcs := h.canSample
    cases hb : b.items with
    | nil =>
      rw [hb] at hcs
      simp only [Table.maybeCommit_none.mpr (by simpa using hcs)]
      exact ⟨h, rfl⟩
    | cons i l =>
      rw [hb] at hcs
      simp only [Table.maybeCommit_some.mpr ⟨by simpa using hcs, rfl⟩]
      obtain ⟨t1, s, h1, h2, h3⟩ := h.sampleOne hb rl d
      simp only [h1]
      exact ⟨by simpa [Buf.deliver, hb] using h3, by simp [Buf.deliver, hb, Spec.answer, h2]⟩
  | reset =>
    obtain ⟨bS, τS, bR, τR, hc⟩ := h.inv.core
    refine ⟨⟨h.inv.reset.fin, hc.samp.order_clear, ?_, by simp [Buf.step], rfl, h.closed, h.maxSize, h.maxTimes,
      h.spi, h.minSize, h.minDiff, h.maxDiff⟩, rfl⟩
    exact Table.Tracks.empty
  | close =>
    exact ⟨⟨h.inv.close.fin, h.ord, h.tracks, h.fresh, h.smp, rfl, h.maxSize, h.maxTimes,
      h.spi, h.minSize, h.minDiff, h.maxDiff⟩, rfl⟩

theorem make (m : Discipline) (cap : Nat) (hcap : 0 < cap) : QInv m cap (m.config cap hcap).init ⟨[], false⟩ := by
  have := (m.config cap hcap).inv_init
  cases m
  all_goals
    exact ⟨this, rfl, Table.Tracks.empty, by simp, rfl, rfl, rfl, rfl, rfl, rfl, rfl, rfl⟩

end QInv
end Verif
