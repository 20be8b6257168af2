import Verif.Proofs.TrajBase
import Verif.Proofs.InsertCache
namespace Verif
namespace TrajWriter
open Chunker (Row Used Moves Held ident)

theorem Used_active_lt {c : Chunker} {rows : List Row} (h : c.Used rows) {i : Nat} (hi : i ∈ c.active) : i < c.cells.length := by
  obtain ⟨bs, cur, d, h1, _, _⟩ := h
  rw [h1.active, List.mem_range'_1] at hi
  omega

/-- The references of an item exist, and the trajectory names their chunks. -/
structure ItemOK (w : TrajWriter) (it : WItem) : Prop where
  cells : ∀ r ∈ it.refs, (w.cell? r).isSome
  keys : ∀ k ∈ getChunkKeys it.traj, ∃ r ∈ it.refs, w.keyOf r = k

theorem cells_moves {w w' : TrajWriter} {b : Bool} (h : MMoves w.chunkers w'.chunkers b) {r : Ref} (hx : (w.cell? r).isSome) :
    (w'.cell? r).isSome := by
  obtain ⟨x, hx⟩ := Option.isSome_iff_exists.mp hx
  obtain ⟨x', h1, _⟩ := cell_moves h hx
  simp [h1]

theorem ItemOK.moves {w w' : TrajWriter} {b : Bool} (h : MMoves w.chunkers w'.chunkers b) {it : WItem} (hi : w.ItemOK it) : w'.ItemOK it where
  cells := fun r hr => cells_moves h (hi.cells r hr)
  keys := fun k hk => by
    obtain ⟨r, h1, h2⟩ := hi.keys k hk
    exact ⟨r, h1, by rw [keyOf_moves h (hi.cells r h1)]; exact h2⟩

/-- Where the worker is, with respect to the items it is done with (`P`), all items (`cr`) and the confirmed keys. -/
def PhaseOK (w : TrajWriter) (cr P : List WItem) (cf : List Key) : Prop :=
  match w.phase with
  | .fetch | .waiting => itemsOf w.msgs <:+ P
  | .chunks it rest => w.queue.head? = some it ∧ itemsOf w.msgs <:+ P ∧ rest ⊆ it.refs
  | .check it => w.queue.head? = some it ∧ itemsOf w.msgs <:+ P
  | .finalize it | .send it => w.queue.head? = some it ∧ itemsOf w.msgs <:+ P ∧ (it.key ∈ w.inFlight ∨ it.key ∈ cf)
  | .sent => ∃ it, w.queue.head? = some it ∧ itemsOf w.msgs <:+ P ++ [it] ∧ (it.key ∈ w.inFlight ∨ it.key ∈ cf)
  | .sendFailed it => w.queue.head? = some it ∧ itemsOf w.msgs <:+ P ++ [it]
  | .finish | .ended _ => itemsOf w.msgs <:+: cr
  | .start | .stopped => w.msgs = []

/-- What holds of the queue: `cr` are all items created, `cf` the confirmed keys, and `P` the items no longer in the queue. -/
structure QInv (w : TrajWriter) (cr : List WItem) (cf : List Key) (P : List WItem) : Prop where
  inj : ∀ i j, w.gen i = w.gen j → i = j
  split : cr = P ++ w.queue
  keys : ∀ it ∈ cr, ∃ n, n < w.drawn ∧ it.key = w.gen n
  nodup : (cr.map WItem.key).Nodup
  gone : ∀ it ∈ P, it.key ∈ w.inFlight ∨ it.key ∈ cf
  once : w.inFlight.Nodup
  held : ∀ it ∈ w.queue, ∀ r ∈ it.refs, HeldRef w.chunkers r
  items : ∀ it ∈ cr, w.ItemOK it
  phase : w.PhaseOK cr P cf
  past : ∀ s ∈ w.past, itemsOf s <:+: cr

/-- A change of the chunkers. -/
theorem QInv.frame {w w' : TrajWriter} {cr P : List WItem} {cf : List Key} (h : w.QInv cr cf P) {b : Bool}
    (hm : MMoves w.chunkers w'.chunkers b) (hb : b = true → w.queue = []) (h1 : w'.gen = w.gen) (h2 : w.drawn ≤ w'.drawn)
    (h3 : w'.queue = w.queue) (h4 : w'.inFlight = w.inFlight) (h5 : w'.phase = w.phase) (h6 : w'.msgs = w.msgs) (h7 : w'.past = w.past) :
    w'.QInv cr cf P where
  inj := by rw [h1]; exact h.inj
  split := by rw [h3]; exact h.split
  keys := fun it hi => by
    obtain ⟨n, g1, g2⟩ := h.keys it hi
    exact ⟨n, by omega, by rw [h1]; exact g2⟩
  nodup := h.nodup
  gone := by rw [h4]; exact h.gone
  once := by rw [h4]; exact h.once
  held := by
    rw [h3]
    intro it hi r hr
    cases b with
    | true => rw [hb rfl] at hi; cases hi
    | false => exact (h.held it hi r hr).moves hm
  items := fun it hi => (h.items it hi).moves hm
  phase := by
    have := h.phase
    unfold PhaseOK at this ⊢
    rw [h3, h4, h5, h6]
    exact this
  past := by rw [h7]; exact h.past

theorem mergeStep_keys {cells : List Cell} : ∀ {acc : List Slice} {ks : List Key}, (∀ s ∈ acc, s.chunk ∈ ks) → (∀ c ∈ cells, c.key ∈ ks) →
    ∀ s ∈ cells.foldl mergeStep acc, s.chunk ∈ ks := by
  induction cells with
  | nil => exact fun h _ => h
  | cons c cells ih =>
    intro acc ks ha hc
    refine ih (fun s hs => ?_) fun x hx => hc x (List.mem_cons_of_mem _ hx)
    have hck := hc c List.mem_cons_self
    unfold mergeStep at hs
    cases hl : acc.getLast? with
    | none =>
      simp only [hl, List.mem_append, List.mem_singleton] at hs
      rcases hs with hs | rfl
      · exact ha s hs
      · exact hck
    | some l =>
      simp only [hl] at hs
      split at hs
      · simp only [List.mem_append, List.mem_singleton] at hs
        rcases hs with hs | rfl
        · exact ha s hs
        · exact hck
      · simp only [List.mem_append, List.mem_singleton] at hs
        rcases hs with hs | rfl
        · exact ha s (List.dropLast_subset _ hs)
        · exact ha l (List.mem_of_getLast? hl)

theorem makeItem_ok {w : TrajWriter} {t : String} {p : Pri} {cols : List TrajCol} (h : ∀ c ∈ cols, ∀ r ∈ c.refs, HeldRef w.chunkers r) :
    w.ItemOK (w.makeItem t p cols) where
  cells := fun r hr => by
    obtain ⟨c, h1, h2⟩ := List.mem_flatMap.mp hr
    exact (h c h1 r h2).cell
  keys := fun k hk => by
    obtain ⟨col, h1, s, h2, rfl⟩ := ((C30_chunk_keys _).2.1 k).mp hk
    obtain ⟨c, h3, rfl⟩ := List.mem_map.mp h1
    have := mergeStep_keys (cells := c.refs.filterMap w.cell?) (acc := []) (ks := c.refs.map w.keyOf) (by simp) (fun x hx => by
      obtain ⟨r, g1, g2⟩ := List.mem_filterMap.mp hx
      exact List.mem_map.mpr ⟨r, g1, by simp [keyOf, g2]⟩) s h2
    obtain ⟨r, g1, g2⟩ := List.mem_map.mp this
    exact ⟨r, List.mem_flatMap.mpr ⟨c, h3, g1⟩, g2⟩

theorem validateColumns_alive {w : TrajWriter} : ∀ {cols : List TrajCol}, w.validateColumns cols = .ok () → ∀ c ∈ cols, w.validateColumn c = .ok ()
  | [], _ => by simp
  | c :: cols, h => by
    unfold validateColumns at h
    cases hc : w.validateColumn c with
    | err e => simp [hc] at h
    | died => simp [hc] at h
    | ok u =>
      rw [hc] at h
      intro x hx
      rcases List.mem_cons.mp hx with rfl | hx
      · exact hc
      · exact validateColumns_alive h x hx

theorem validateColumn_iff {w : TrajWriter} {c : TrajCol} (h : w.validateColumn c = .ok ()) :
    (∀ r ∈ c.refs, w.alive r = true) ∧ (c.squeeze = true → c.refs.length = 1) ∧ c.refs ≠ [] ∧
      ∀ r ∈ c.refs, ∀ s ∈ c.refs, w.specOf r = w.specOf s := by
  unfold validateColumn at h
  split at h
  · cases h
  · rename_i h1
    split at h
    · cases h
    · rename_i h2
      refine ⟨fun r hr => ?_, fun hs => ?_, ?_, ?_⟩
      · cases ha : w.alive r with
        | true => rfl
        | false => exact absurd (List.any_eq_true.mpr ⟨r, hr, by simp [ha]⟩) h1
      · exact Classical.byContradiction fun hn => h2 ⟨hs, hn⟩
      · intro he
        simp [he] at h
      · cases hr : c.refs with
        | nil => simp
        | cons r0 rest =>
          rw [hr] at h
          simp only at h
          split at h
          · cases h
          · rename_i h3
            have : ∀ s ∈ r0 :: rest, w.specOf s = w.specOf r0 := by
              intro s hs
              rcases List.mem_cons.mp hs with rfl | hs
              · rfl
              · exact Classical.byContradiction fun hn => h3 (List.any_eq_true.mpr ⟨s, hs, by simpa using hn⟩)
            intro a ha b hb
            rw [this a ha, this b hb]

theorem alive_held {w : TrajWriter} {rows : Nat → List Row} (hb : w.Base rows) {cr P : List WItem} {cf : List Key} (h : w.QInv cr cf P)
    {r : Ref} (ha : w.alive r = true) : HeldRef w.chunkers r := by
  unfold alive at ha
  rw [Bool.or_eq_true] at ha
  rcases ha with ha | ha
  · cases hc : w.chunkers.get? r.col with
    | none => simp [hc] at ha
    | some c =>
      rw [hc] at ha
      have hm : r.id ∈ c.active := by simpa using ha
      exact ⟨c, hc, Used_active_lt (hb.cols.used _ c hc).1 hm, .inl hm⟩
  · obtain ⟨it, h1, h2⟩ := List.any_eq_true.mp ha
    exact h.held it h1 r (by simpa using h2)

theorem PhaseOK.grow {w w' : TrajWriter} {cr cr' P : List WItem} {cf cf' : List Key} (h : w.PhaseOK cr P cf)
    (h1 : w'.phase = w.phase) (h2 : w'.msgs = w.msgs) (h3 : ∀ it, w.queue.head? = some it → w'.queue.head? = some it)
    (h4 : ∀ k, k ∈ w.inFlight ∨ k ∈ cf → k ∈ w'.inFlight ∨ k ∈ cf') (h5 : cr <+: cr') : w'.PhaseOK cr' P cf' := by
  unfold PhaseOK at h ⊢
  rw [h1, h2]
  cases hp : w.phase <;> simp only [hp] at h ⊢
  case chunks it rest => exact ⟨h3 _ h.1, h.2⟩
  case check it => exact ⟨h3 _ h.1, h.2⟩
  case finalize it => exact ⟨h3 _ h.1, h.2.1, h4 _ h.2.2⟩
  case send it => exact ⟨h3 _ h.1, h.2.1, h4 _ h.2.2⟩
  case sent =>
    obtain ⟨it, g1, g2, g3⟩ := h
    exact ⟨it, h3 _ g1, g2, h4 _ g3⟩
  case sendFailed it => exact ⟨h3 _ h.1, h.2⟩
  case finish => exact h.trans h5.isInfix
  case ended => exact h.trans h5.isInfix
  all_goals exact h

theorem head_append {l m : List WItem} {it : WItem} (h : l.head? = some it) : (l ++ m).head? = some it := by
  cases l <;> simp_all

/-- A change that leaves the queue and the chunkers. -/
theorem QInv.set {w w' : TrajWriter} {cr P : List WItem} {cf : List Key} (h : w.QInv cr cf P) (h1 : w'.chunkers = w.chunkers)
    (h2 : w'.gen = w.gen) (h3 : w'.drawn = w.drawn) (h4 : w'.queue = w.queue) (h5 : w'.inFlight.Nodup)
    (h6 : ∀ it ∈ P, it.key ∈ w'.inFlight ∨ it.key ∈ cf) (h7 : w'.PhaseOK cr P cf) (h8 : ∀ s ∈ w'.past, itemsOf s <:+: cr) : w'.QInv cr cf P where
  inj := by rw [h2]; exact h.inj
  split := by rw [h4]; exact h.split
  keys := by rw [h2, h3]; exact h.keys
  nodup := h.nodup
  gone := h6
  once := h5
  held := by rw [h1, h4]; exact h.held
  items := fun it hi => (h.items it hi).moves (b := false) (by rw [h1]; exact MMoves.refl _ _)
  phase := h7
  past := h8

theorem suffix_append {α : Type} {a b c : List α} (h : a <:+ b) : a ++ c <:+ b ++ c := by
  obtain ⟨t, rfl⟩ := h
  exact ⟨t, by simp⟩

/-- One step of the worker. -/
theorem QInv.worker {w : TrajWriter} {rows : Nat → List Row} (hb : w.Base rows) {cr P : List WItem} {cf : List Key} (h : w.QInv cr cf P)
    (inp : Input) : ∃ P', (w.workerStep inp).1.QInv cr cf P' := by
  have hph := h.phase
  unfold PhaseOK at hph
  unfold workerStep
  have hPcr : P <:+: cr := by rw [h.split]; exact (List.prefix_append _ _).isInfix
  cases hp : w.phase with
  | start =>
    simp only [hp] at hph ⊢
    cases w.unrecoverable with
    | some e => exact ⟨P, h.set rfl rfl rfl rfl h.once h.gone (by simp [PhaseOK, hph, itemsOf]) h.past⟩
    | none =>
      simp only
      split
      · exact ⟨P, h.set rfl rfl rfl rfl h.once h.gone (by simp [PhaseOK, hph, itemsOf]) h.past⟩
      · exact ⟨P, h.set rfl rfl rfl rfl h.once h.gone (by simp [PhaseOK, itemsOf]) h.past⟩
  | fetch =>
    simp only [hp] at hph ⊢
    split
    · exact ⟨P, h.set rfl rfl rfl rfl h.once h.gone (by simp only [PhaseOK]; exact hph.isInfix.trans hPcr) h.past⟩
    · cases hq : w.queue with
      | nil => exact ⟨P, h⟩
      | cons it q =>
        exact ⟨P, h.set rfl rfl rfl hq.symm h.once h.gone (by simp only [PhaseOK]; exact ⟨by simp, hph, fun _ h => h⟩) h.past⟩
  | chunks it rest =>
    simp only [hp] at hph
    obtain ⟨g1, g2, g3⟩ := hph
    cases rest with
    | nil => exact ⟨P, h.set rfl rfl rfl rfl h.once h.gone (by simp only [PhaseOK]; exact ⟨g1, g2⟩) h.past⟩
    | cons r rest =>
      have g3' : rest ⊆ it.refs := fun x hx => g3 (List.mem_cons_of_mem _ hx)
      simp only [sendChunk]
      cases w.chunkOf r with
      | none => exact ⟨P, h.set rfl rfl rfl rfl h.once h.gone (by simp only [PhaseOK]; exact ⟨g1, g2, g3'⟩) h.past⟩
      | some ch =>
        simp only
        split
        · exact ⟨P, h.set rfl rfl rfl rfl h.once h.gone (by simp only [PhaseOK]; exact ⟨g1, g2, g3'⟩) h.past⟩
        · have hm : itemsOf (if inp.big = true then w.msgs ++ [(⟨w.request ++ [ch], none⟩ : Msg)] else w.msgs) = itemsOf w.msgs := by
            split
            · simp [itemsOf]
            · rfl
          refine ⟨P, h.set rfl rfl rfl rfl h.once h.gone ?_ h.past⟩
          unfold PhaseOK
          by_cases hf : inp.big ∧ inp.ok = false
          · simp only [hf, and_self, if_true]
            simp only [hf, if_true] at hm
            rw [hm]
            exact g2.isInfix.trans hPcr
          · simp only [if_neg hf, hm]
            exact ⟨g1, g2, g3'⟩
  | check it =>
    simp only [hp] at hph
    obtain ⟨g1, g2⟩ := hph
    simp only [checkItem]
    split
    · refine ⟨P, h.set rfl rfl rfl rfl ?_ ?_ ?_ h.past⟩
      · simp only
        split
        · exact h.once
        · rename_i hn
          refine List.nodup_append.mpr ⟨h.once, by simp, ?_⟩
          intro a ha b hb2
          simp only [List.mem_singleton] at hb2
          subst hb2
          intro he; subst he; exact hn ha
      · intro x hx
        rcases h.gone x hx with hg | hg
        · left
          simp only
          split
          · exact hg
          · simp [hg]
        · exact .inr hg
      · simp only [PhaseOK]
        refine ⟨g1, g2, .inl ?_⟩
        split
        · assumption
        · simp
    · split
      · exact ⟨P, h.set rfl rfl rfl rfl h.once h.gone (by simp only [PhaseOK]; exact g2) h.past⟩
      · exact ⟨P, h.set rfl rfl rfl rfl h.once h.gone (by simp only [PhaseOK]; exact g2) h.past⟩
  | waiting =>
    simp only [hp] at hph
    exact ⟨P, h.set rfl rfl rfl rfl h.once h.gone (by simp only [PhaseOK]; exact hph) h.past⟩
  | finalize it =>
    simp only [hp] at hph
    obtain ⟨k1, k2⟩ := onAll_ok (f := finalizeOne inp.bytes it) (reset := false) (g := w.colGen) (rows := rows) (fun i c _ => by
        obtain ⟨op, o1, o2, o3, o4⟩ := finalizeOne_op inp.bytes it i c
        exact ⟨op, o1, o2, o3, fun h => by rw [o4] at h; cases h⟩) (is := w.chunkers.keys) hb.cols
    have h' : QInv { w with chunkers := (onAll (finalizeOne inp.bytes it) w.chunkers.keys w.chunkers).1 } cr cf P :=
      h.frame (b := false) k2 (by simp) rfl (Nat.le_refl _) rfl rfl rfl rfl rfl
    exact ⟨P, h'.set rfl rfl rfl rfl h.once h.gone (by simp only [PhaseOK]; exact hph) h.past⟩
  | send it =>
    simp only [hp] at hph
    obtain ⟨g1, g2, g3⟩ := hph
    have hi : itemsOf (w.msgs ++ [⟨w.request, some (it, w.streamed)⟩]) <:+ P ++ [it] := by
      rw [itemsOf_append]
      exact suffix_append g2
    refine ⟨P, h.set rfl rfl rfl rfl h.once h.gone ?_ h.past⟩
    unfold PhaseOK
    cases inp.ok with
    | true => exact ⟨it, g1, hi, g3⟩
    | false => exact ⟨g1, hi⟩
  | sent =>
    simp only [hp] at hph
    obtain ⟨it, g1, g2, g3⟩ := hph
    cases hq : w.queue with
    | nil => simp [hq] at g1
    | cons it' q =>
      simp only [hq, List.head?_cons, Option.some.injEq] at g1
      subst g1
      refine ⟨P ++ [it'], ⟨h.inj, by simp [h.split, hq], h.keys, h.nodup, ?_, h.once, ?_, ?_, ?_, h.past⟩⟩
      · intro x hx
        rcases List.mem_append.mp hx with hx | hx
        · exact h.gone x hx
        · simp only [List.mem_singleton] at hx
          subst hx
          exact g3
      · intro x hx
        exact h.held x (by rw [hq]; exact List.mem_cons_of_mem _ (by simpa [hq] using hx))
      · intro x hx
        refine ItemOK.moves (b := false) (w := w) ?_ (h.items x hx)
        exact MMoves.refl _ _
      · simp only [PhaseOK]
        exact g2
  | sendFailed it =>
    simp only [hp] at hph
    obtain ⟨g1, g2⟩ := hph
    cases hq : w.queue with
    | nil => simp [hq] at g1
    | cons it' q =>
      simp only [hq, List.head?_cons, Option.some.injEq] at g1
      subst g1
      refine ⟨P, h.set rfl rfl rfl (by simp [hq]) (h.once.filter _) ?_ ?_ h.past⟩
      · intro x hx
        rcases h.gone x hx with hg | hg
        · left
          simp only [List.mem_filter, hg, true_and, decide_eq_true_eq]
          intro he
          have := h.nodup
          rw [h.split, hq, List.map_append, List.nodup_append] at this
          exact this.2.2 x.key (List.mem_map_of_mem hx) it'.key (by simp) he
        · exact .inr hg
      · simp only [PhaseOK]
        refine g2.isInfix.trans ?_
        rw [h.split, hq]
        exact ⟨[], q, by simp⟩
  | finish =>
    simp only [hp] at hph
    exact ⟨P, h.set rfl rfl rfl rfl h.once h.gone hph h.past⟩
  | ended status =>
    simp only [hp] at hph
    have hpast : ∀ s ∈ w.past ++ [w.msgs], itemsOf s <:+: cr := fun s hs => by
      rcases List.mem_append.mp hs with hs | hs
      · exact h.past s hs
      · simp only [List.mem_singleton] at hs
        subst hs
        exact hph
    simp only [endStream]
    split
    · exact ⟨P, h.set rfl rfl rfl rfl h.once h.gone rfl hpast⟩
    · cases status with
      | none => exact ⟨P, h.set rfl rfl rfl rfl h.once h.gone rfl hpast⟩
      | some e => cases e <;> exact ⟨P, h.set rfl rfl rfl rfl h.once h.gone rfl hpast⟩
  | stopped => exact ⟨P, h⟩

end TrajWriter
end Verif
