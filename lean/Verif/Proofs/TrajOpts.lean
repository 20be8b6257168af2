import Verif.Proofs.TrajRun
/-
The options of the columns.
-/
namespace Verif
namespace Chunker

/-- The chunker works with the options, but without delta encoding. -/
structure Runs (o : ChunkerOpts) (c : Chunker) : Prop where
  opts : c.opts.clone = o.clone
  delta : c.opts.delta = false
  cells : ∀ x ∈ c.cells, ∀ ch, x.chunk = some ch → ch.deltaEncoded = false

theorem Runs.frame {o : ChunkerOpts} {c c' : Chunker} (h : Runs o c) (h1 : c'.opts = c.opts) (h2 : c'.cells = c.cells) : Runs o c' :=
  ⟨by rw [h1]; exact h.opts, by rw [h1]; exact h.delta, by rw [h2]; exact h.cells⟩

theorem notify_delta {c : Chunker} (h : ∀ x ∈ c.cells, ∀ ch, x.chunk = some ch → ch.deltaEncoded = false) {ch : ChunkData}
    (hc : ch.deltaEncoded = false) : ∀ x ∈ c.notify ch, ∀ d, x.chunk = some d → d.deltaEncoded = false := by
  intro x hx
  obtain ⟨i, hi⟩ := List.getElem?_of_mem hx
  rcases notify_fixed c ch i with hn | hn <;> rw [hn] at hi
  · exact h x (List.mem_of_getElem? hi)
  · cases hy : c.cells[i]? with
    | none => simp [hy] at hi
    | some y =>
      rw [hy] at hi
      simp only [Option.map_some, Option.some.injEq] at hi
      subst hi
      intro d hd
      simp only [setChunk, Option.some.injEq] at hd
      subst hd
      exact hc

theorem Runs.flush {o : ChunkerOpts} {c : Chunker} (h : Runs o c) : Runs o c.flush.1 := by
  refine ⟨by rw [flush_opts]; exact h.opts, by rw [flush_opts]; exact h.delta, ?_⟩
  unfold Chunker.flush
  split
  · exact h.cells
  · split
    · exact h.cells
    · exact h.cells
    · split
      · exact h.cells
      · exact h.cells
      · split
        · exact h.cells
        · exact notify_delta h.cells h.delta

theorem Runs.append {o : ChunkerOpts} {c : Chunker} (h : Runs o c) (t : Tensor) (e : Key) (s : Int) : Runs o (c.append t e s).1 := by
  unfold Chunker.append
  split
  · exact h
  · split
    · exact h
    · split
      · exact h
      · exact h
      · exact h
      · have hp : Runs o (c.pushRow t e s) := ⟨h.opts, h.delta, fun x hx ch hch => by
          rcases List.mem_append.mp hx with hx | hx
          · exact h.cells x hx ch hch
          · simp only [List.mem_singleton] at hx
            subst hx
            cases hch⟩
        have hf : Runs o (c.pushRow t e s).flushIfFull.1 := by
          unfold flushIfFull
          split
          · exact hp.flush
          · exact hp
        split <;> rename_i heq <;> rw [heq] at hf
        · exact hf.frame rfl rfl
        · exact hf
        · exact hf

theorem adjust_clone (a : AutoTuned) (s : Score) : (a.adjust s).keep = a.keep ∧ (a.adjust s).weight = a.weight ∧ (a.adjust s).delta = a.delta := by
  unfold AutoTuned.adjust
  split
  · exact ⟨rfl, rfl, rfl⟩
  · simp only
    generalize (if s.avgLength - (a.maxLen : Rat) < 0 then -(s.avgLength - (a.maxLen : Rat)) else s.avgLength - (a.maxLen : Rat)) = d
    split
    · exact ⟨rfl, rfl, rfl⟩
    · generalize min (max (a.maxLen + if decide (s.cost < a.prev.cost) = decide (a.prev.avgLength < s.avgLength) then 2 else -1) 1) a.keep = n
      split <;> exact ⟨rfl, rfl, rfl⟩

theorem Runs.finalized {o : ChunkerOpts} {c : Chunker} (h : Runs o c) (refs : List ChunkObs) : Runs o (c.itemFinalized refs).1 := by
  unfold itemFinalized
  split
  · exact h
  · split
    · rename_i o' ho
      have : o'.clone = c.opts.clone ∧ o'.delta = c.opts.delta := by
        unfold ChunkerOpts.onItemFinalized at ho
        split at ho
        · cases ho; exact ⟨rfl, rfl⟩
        · rename_i a ha
          cases hf : a.onItemFinalized refs with
          | none => simp [hf] at ho
          | some b =>
            simp only [hf, Option.map_some, Option.some.injEq] at ho
            subst ho
            rw [ha]
            have : b.keep = a.keep ∧ b.weight = a.weight ∧ b.delta = a.delta := by
              unfold AutoTuned.onItemFinalized at hf
              split at hf
              · cases hf
              · simp only at hf
                split at hf
                · simp only [Option.some.injEq] at hf; subst hf; exact ⟨rfl, rfl, rfl⟩
                · split at hf
                  · cases hf
                  · rename_i a2 s heq
                    simp only [Option.some.injEq] at hf
                    subst hf
                    obtain ⟨k1, k2, k3⟩ := adjust_clone a2 s
                    rw [k1, k2, k3]
                    unfold AutoTuned.reduce at heq
                    split at heq
                    · simp only [Option.some.injEq, Prod.mk.injEq] at heq
                      rw [← heq.1]
                      exact ⟨rfl, rfl, rfl⟩
                    · cases heq
            simp only [ChunkerOpts.clone, ChunkerOpts.delta, this.1, this.2.1, this.2.2, and_self]
      exact ⟨this.1.trans h.opts, this.2.trans h.delta, h.cells⟩
    · exact h

end Chunker

theorem clone_clone (o : ChunkerOpts) : o.clone.clone = o.clone ∧ o.clone.delta = false := by
  cases o <;> exact ⟨rfl, rfl⟩

namespace TrajWriter
open Chunker

/-- All chunkers work with the options asked for. -/
def AllRun (f : Nat → ChunkerOpts) (m : AMap Nat Chunker) : Prop := ∀ i c, m.get? i = some c → Runs (f i) c

theorem AllRun.insert {f : Nat → ChunkerOpts} {m : AMap Nat Chunker} (h : AllRun f m) {i : Nat} {c : Chunker} (hc : Runs (f i) c) :
    AllRun f (m.insert i c) := by
  intro j d hj
  rw [AMap.get?_insert] at hj
  split at hj
  · rename_i hij
    simp only [Option.some.injEq] at hj
    subst hj
    subst hij
    exact hc
  · exact h j d hj

theorem AllRun.onAll {f : Nat → ChunkerOpts} {g : Nat → Chunker → Chunker × Res Unit} (hg : ∀ i c o, Runs o c → Runs o (g i c).1) :
    ∀ {is : List Nat} {m : AMap Nat Chunker}, AllRun f m → AllRun f (onAll g is m).1
  | [], _, h => h
  | i :: is, m, h => by
    unfold TrajWriter.onAll
    cases hi : m.get? i with
    | none => exact AllRun.onAll hg h
    | some c =>
      have hc := hg i c _ (h i c hi)
      rcases hx : g i c with ⟨c', _ | _ | _⟩ <;> rw [hx] at hc <;> simp only [hx]
      · exact AllRun.onAll hg (h.insert hc)
      · exact h.insert hc
      · exact h.insert hc

/-- The chunkers and the options for new ones are as asked for. -/
structure OptInv (w : TrajWriter) (f : Nat → ChunkerOpts) : Prop where
  all : AllRun f w.chunkers
  next : ∀ i, w.chunkers.get? i = none → ((w.overrides.get? i).getD w.opts).clone = (f i).clone

theorem addChunkers_all {f : Nat → ChunkerOpts} : ∀ {data : List (Option Tensor)} {w : TrajWriter} {i : Nat}, w.OptInv f →
    ((w.addChunkers i data).1).OptInv f
  | [], _, _, h => h
  | none :: data, w, i, h => addChunkers_all (data := data) (i := i + 1) h
  | some t :: data, w, i, h => by
    unfold addChunkers
    cases hi : w.chunkers.get? i with
    | some c => exact addChunkers_all (data := data) (i := i + 1) h
    | none =>
      simp only
      cases hn : Chunker.new t.dtype t.shape ((w.overrides.get? i).getD w.opts).clone (w.colGen i) with
      | err e => exact h
      | died => exact h
      | ok c =>
        refine addChunkers_all (data := data) (i := i + 1) ⟨h.all.insert ?_, fun j hj => ?_⟩
        · unfold Chunker.new at hn
          split at hn
          · cases hn
          · simp only [Res.ok.injEq] at hn
            subst hn
            exact ⟨by rw [(clone_clone _).1]; exact h.next i hi, (clone_clone _).2, by simp⟩
        · rw [AMap.get?_insert] at hj
          split at hj
          · cases hj
          · exact h.next j hj

theorem OptInv.set {w : TrajWriter} {f : Nat → ChunkerOpts} (h : w.OptInv f) {i : Nat} {c : Chunker} (hc : Runs (f i) c) :
    OptInv { w with chunkers := w.chunkers.insert i c } f := by
  refine ⟨h.all.insert hc, fun j hj => ?_⟩
  simp only at hj
  rw [AMap.get?_insert] at hj
  split at hj
  · cases hj
  · exact h.next j hj

theorem appendAll_all {f : Nat → ChunkerOpts} : ∀ {data : List (Option Tensor)} {w : TrajWriter} {i : Nat}, w.OptInv f →
    ((w.appendAll i data).1).OptInv f
  | [], _, _, h => h
  | none :: data, w, i, h => by
    have := appendAll_all (data := data) (i := i + 1) h
    unfold appendAll
    rcases hx : w.appendAll (i + 1) data with ⟨w', _ | _ | _⟩ <;> rw [hx] at this <;> exact this
  | some t :: data, w, i, h => by
    unfold appendAll
    cases hi : w.chunkers.get? i with
    | none => exact h
    | some c =>
      have hc := (h.all i c hi).append t w.episode w.step
      rcases hx : c.append t w.episode w.step with ⟨c', id | _ | _⟩ <;> rw [hx] at hc <;> simp only [hx]
      · have := appendAll_all (data := data) (i := i + 1) (h.set hc)
        rcases hy : appendAll { w with chunkers := w.chunkers.insert i c' } (i + 1) data with ⟨w', _ | _ | _⟩ <;> rw [hy] at this <;> exact this
      · exact h.set hc
      · exact h.set hc

theorem forceRefs_all {f : Nat → ChunkerOpts} : ∀ {refs : List Ref} {w : TrajWriter}, w.OptInv f → ((w.forceRefs refs).1).OptInv f
  | [], _, h => h
  | r :: refs, w, h => by
    unfold forceRefs
    split
    · exact forceRefs_all h
    · cases hi : w.chunkers.get? r.col with
      | none => exact h
      | some c =>
        have hc := (h.all _ c hi).flush
        rcases hx : c.flush with ⟨c', _ | _ | _⟩ <;> rw [hx] at hc <;> simp only [hx]
        · exact forceRefs_all (h.set hc)
        · exact h.set hc
        · exact h.set hc

theorem OptInv.frame {w w' : TrajWriter} {f : Nat → ChunkerOpts} (h : w.OptInv f) (h1 : w'.chunkers = w.chunkers)
    (h2 : w'.overrides = w.overrides) (h3 : w'.opts = w.opts) : w'.OptInv f :=
  ⟨by rw [h1]; exact h.all, by rw [h1, h2, h3]; exact h.next⟩

theorem OptInv.onAll {w w' : TrajWriter} {f : Nat → ChunkerOpts} (h : w.OptInv f) {g : Nat → Chunker → Chunker × Res Unit}
    (hg : ∀ i c o, Runs o c → Runs o (g i c).1) {is : List Nat} (h1 : w'.chunkers = (TrajWriter.onAll g is w.chunkers).1)
    (h2 : w'.overrides = w.overrides) (h3 : w'.opts = w.opts) : w'.OptInv f := by
  refine ⟨by rw [h1]; exact h.all.onAll hg, fun i hi => ?_⟩
  rw [h2, h3]
  refine h.next i ?_
  rw [h1] at hi
  have key : ∀ (is : List Nat) (m : AMap Nat Chunker), (TrajWriter.onAll g is m).1.get? i = none → m.get? i = none := by
    intro is
    induction is with
    | nil => exact fun m h => h
    | cons j is ih =>
      intro m hm
      unfold TrajWriter.onAll at hm
      cases hj : m.get? j with
      | none => rw [hj] at hm; exact ih m hm
      | some c =>
        rw [hj] at hm
        have hins : ∀ c', (m.insert j c').get? i = none → m.get? i = none := by
          intro c' hc
          rw [AMap.get?_insert] at hc
          split at hc
          · cases hc
          · exact hc
        rcases hx : g j c with ⟨c', _ | _ | _⟩ <;> simp only [hx] at hm
        · exact hins _ (ih _ hm)
        · exact hins _ hm
        · exact hins _ hm
  exact key is _ hi

/-- The options asked for after an event. -/
def Event.asks (e : Event) (r : Res Reply) (o : ChunkerOpts) (i : Nat) : ChunkerOpts :=
  match e, r with
  | .configure col o', .ok .done => if col = i then o' else o
  | _, _ => o

theorem OptInv.handle {w : TrajWriter} {f : Nat → ChunkerOpts} (h : w.OptInv f) (e : Event) :
    ((w.handle e).1).OptInv fun i => e.asks (w.handle e).2 (f i) i := by
  cases e with
  | append data inc =>
    show ((w.append data inc).1).OptInv f
    have h1 := addChunkers_all (data := data) (i := 0) h
    unfold append
    split
    · exact h
    · rcases hx : w.addChunkers 0 data with ⟨w1, _ | _ | _⟩ <;> rw [hx] at h1 <;> simp only
      · have h2 := appendAll_all (data := data) (i := 0) h1
        rcases hy : w1.appendAll 0 data with ⟨w2, _ | _ | _⟩ <;> rw [hy] at h2 <;> simp only
        · exact h2.frame rfl rfl rfl
        · exact h2
        · exact h2
      · exact h1
      · exact h1
  | createItem t p cols =>
    show ((w.createItem t p cols).1).OptInv f
    rcases createItem_cases w t p cols with ⟨r, he, _⟩ | ⟨r, he, _⟩ | ⟨_, _, _, he⟩ <;> rw [he] <;> exact h.frame rfl rfl rfl
  | flushBegin k => exact forceRefs_all (f := f) h
  | flushEnd k =>
    have : (w.handle (.flushEnd k)).1 = w := by simp only [TrajWriter.handle]; cases w.flushResult k <;> rfl
    rw [this]
    exact h
  | episodeBegin =>
    show ((w.handle .episodeBegin).1).OptInv f
    simp only [TrajWriter.handle]
    cases w.unrecoverable with
    | some e => exact h
    | none => exact forceRefs_all h
  | episodeEnd clear =>
    show ((w.handle (.episodeEnd clear)).1).OptInv f
    simp only [TrajWriter.handle]
    rcases hx : w.flushResult 0 with _ | ⟨_ | _ | _⟩
    · exact h
    · have hg : ∀ (i : Nat) (c : Chunker) (o : ChunkerOpts), Runs o c → Runs o ((fun (_ : Nat) (c : Chunker) => if clear then (c.reset, Res.ok ()) else c.flush) i c).1 := by
        intro i c o hc
        cases clear with
        | true => exact hc.frame rfl rfl
        | false => exact hc.flush
      have hch : ((w.endEpisode clear).1.chunkers = (TrajWriter.onAll (fun _ c => if clear then (c.reset, .ok ()) else c.flush) w.chunkers.keys w.chunkers).1) ∧
          (w.endEpisode clear).1.overrides = w.overrides ∧ (w.endEpisode clear).1.opts = w.opts := by
        unfold endEpisode
        rcases hy : TrajWriter.onAll (fun _ c => if clear then (c.reset, Res.ok ()) else c.flush) w.chunkers.keys w.chunkers with ⟨m', _ | _ | _⟩ <;>
          exact ⟨rfl, rfl, rfl⟩
      exact h.onAll hg hch.1 hch.2.1 hch.2.2
    · exact h
    · exact h
  | configure col o =>
    simp only [TrajWriter.handle, configure]
    cases ho : o.validate with
    | err e => exact h
    | died => exact h
    | ok _ =>
      simp only
      cases hm : w.chunkers.get? col with
      | none =>
        simp only [Reply.of, Event.asks]
        refine ⟨fun i c hc => ?_, fun i hi => ?_⟩
        · have hne : col ≠ i := by intro hh; subst hh; rw [show w.chunkers.get? col = none from hm] at hc; cases hc
          simp only [hne, if_false]
          exact h.all i c hc
        · simp only
          rw [AMap.get?_insert]
          by_cases hci : i = col
          · subst hci
            simp [(clone_clone o).1]
          · have hci' : col ≠ i := fun h => hci h.symm
            simp only [hci, hci', if_false]
            exact h.next i hi
      | some c =>
        simp only
        have hr := h.all col c hm
        rcases hx : c.applyConfig o.clone with ⟨c', _ | _ | _⟩ <;> simp only [Reply.of, Event.asks]
        · have hc' : Runs o c' := by
            unfold applyConfig at hx
            split at hx
            · simp at hx
            · split at hx
              · simp only [Prod.mk.injEq] at hx
                rw [← hx.1]
                exact ⟨(clone_clone o).1, (clone_clone o).2, hr.cells⟩
              · simp at hx
              · simp at hx
          refine ⟨fun i d hd => ?_, fun i hi => ?_⟩
          · simp only at hd
            rw [AMap.get?_insert] at hd
            by_cases hci : i = col
            · subst hci
              simp only [if_true] at hd ⊢
              simp at hd
              rw [← hd]
              exact hc'
            · have hci' : col ≠ i := fun h => hci h.symm
              simp only [hci, hci', if_false] at hd ⊢
              exact h.all i d hd
          · simp only at hi
            rw [AMap.get?_insert] at hi
            by_cases hci : i = col
            · subst hci; simp at hi
            · have hci' : col ≠ i := fun h => hci h.symm
              simp only [hci, hci', if_false] at hi ⊢
              exact h.next i hi
        · refine h.set ?_
          unfold applyConfig at hx
          split at hx
          · simp only [Prod.mk.injEq] at hx; rw [← hx.1]; exact hr
          · split at hx
            · simp at hx
            · simp only [Prod.mk.injEq] at hx; rw [← hx.1]; exact hr
            · simp at hx
        · refine h.set ?_
          unfold applyConfig at hx
          split at hx
          · simp at hx
          · split at hx
            · simp at hx
            · simp at hx
            · simp only [Prod.mk.injEq] at hx; rw [← hx.1]; exact hr
  | close => exact h.frame rfl rfl rfl
  | worker inp =>
    show ((w.workerStep inp).1).OptInv f
    obtain ⟨h1, h2, _, _, _, _, h3⟩ := workerStep_frame w inp
    rcases h3 with ⟨h3, _⟩ | ⟨it, _, h3⟩
    · exact h.frame h3 h2 h1
    · refine h.onAll (fun i c o hc => ?_) h3 h2 h1
      unfold finalizeOne
      split
      · exact hc
      · exact hc.finalized _
  | confirm keys => exact h.frame rfl rfl rfl

theorem asked_eq (w : TrajWriter) (i : Nat) (o : ChunkerOpts) (e : Event) (evs : List Event) :
    w.asked i o (e :: evs) = (w.handle e).1.asked i (e.asks (w.handle e).2 o i) evs := rfl

theorem OptInv.run {w : TrajWriter} {f : Nat → ChunkerOpts} (h : w.OptInv f) (evs : List Event) :
    ((w.run evs).OptInv fun i => w.asked i (f i) evs) := by
  induction evs generalizing w f with
  | nil => exact h
  | cons e evs ih => exact ih (h.handle e)

theorem Started.optInv {w : TrajWriter} (h : w.Started) : w.OptInv fun _ => w.opts := by
  have hn := h.new
  unfold TrajWriter.new at hn
  split at hn
  · simp only [Res.ok.injEq] at hn
    have h1 : w.chunkers = .empty := by rw [← hn]
    have h2 : w.overrides = .empty := by rw [← hn]
    exact ⟨fun i c hc => (by rw [h1] at hc; cases hc), fun i _ => by rw [h2]; rfl⟩
  · cases hn

end TrajWriter
end Verif
