import Verif.Proofs.QueueGave
import Verif.Proofs.QueueHanded
import Verif.Proofs.QueueWorker
import Verif.Props.C112_Queue
/-
C112: the books of a queue of the asynchronous server.
-/
namespace Verif.AsyncService
open Spec (Buf Discipline)
open Worker (W Act Req answers live Out)

/-- Keys that are sent once are accepted once. -/
theorem accepted_nodup {sent acc : List (Nat × Key)} (hp : ∀ s, part s acc <+: part s sent) (hu : (sent.map Prod.snd).Nodup) : (acc.map Prod.snd).Nodup := by
  have hmem : ∀ x ∈ acc, x ∈ sent := fun x hx => mem_part.mp ((hp x.1).subset (mem_part.mpr hx))
  have key : ∀ (l : List (Nat × Key)), (∀ x ∈ l, x ∈ sent) → (∀ s, (part s l).Nodup) → (l.map Prod.snd).Nodup := by
    intro l
    induction l with
    | nil => intros; exact List.nodup_nil
    | cons x l ih =>
      intro h1 h2
      obtain ⟨s, k⟩ := x
      have hs : ∀ s', part s' ((s, k) :: l) = part s' [(s, k)] ++ part s' l := fun s' => by rw [← part_append]; rfl
      rw [List.map_cons, List.nodup_cons]
      refine ⟨fun hk => ?_, ih (fun x hx => h1 x (List.mem_cons_of_mem _ hx)) fun s' => ?_⟩
      · obtain ⟨⟨s', k'⟩, g1, rfl⟩ := List.mem_map.mp hk
        have := Service.one_stream hu (h1 _ List.mem_cons_self) (h1 _ (List.mem_cons_of_mem _ g1))
        subst this
        have hd := h2 s
        rw [hs, part_one, if_pos rfl, List.nodup_append] at hd
        exact hd.2.2 _ (List.mem_singleton.mpr rfl) _ (mem_part.mpr g1) rfl
      · have hd := h2 s'
        rw [hs, List.nodup_append] at hd
        exact hd.2.1
  exact key acc hmem fun s => (Service.part_nodup hu).sublist (hp s).sublist

/-- Nothing waits for a stream: all that was taken for it was answered to it, and the answers were called. -/
theorem nothing_waits {t : AsyncTable} {q : Nat} (h : (SampTable.pend t).filter (fun r => r.id = AsyncSampler.reqId q) = []) :
    AsyncSampler.answersFor q t.todo = [] ∧ part (AsyncSampler.reqId q) (Worker.taken t.w) = AsyncSampler.answersFor q t.w.out := by
  rw [List.filter_eq_nil_iff] at h
  have none : ∀ x, x ∈ SampTable.pend t → x.id ≠ AsyncSampler.reqId q := fun x hx g => h x hx (by simpa using g)
  constructor
  · simp only [AsyncSampler.answersFor, List.flatMap_eq_nil_iff, List.mem_filter, decide_eq_true_eq]
    rintro x ⟨hx, hid⟩
    exact absurd hid (none x.1.bare (List.mem_append_left _ (List.mem_append_left _ (List.mem_append_left _ (List.mem_map.mpr ⟨x, hx, rfl⟩)))))
  · rw [AsyncSampler.taken_part]
    have : (t.w.terminate ++ Worker.live t.w.sampling).filter (fun r => r.id = AsyncSampler.reqId q) = [] := by
      rw [List.filter_eq_nil_iff]
      intro x hx
      simp only [decide_eq_true_eq]
      rcases List.mem_append.mp hx with hx | hx
      · exact none x.bare (List.mem_append_left _ (List.mem_append_left _ (List.mem_append_right _ (List.mem_map_of_mem hx))))
      · exact none x.bare (List.mem_append_left _ (List.mem_append_right _ (List.mem_map_of_mem hx)))
    rw [this]
    simp

theorem books {w : Wire} (hw : ∀ k, (w.content k).key = k) {m : Discipline} {cap : Nat} {hcap : 0 < cap} {n : String} {cfgs : AMap String Config} {evs : List Event}
    {v : AsyncService} (hr : (AsyncService.init (newTables cfgs)).run w evs = some v) (hd : v.dead = false) (hc : cfgs.get? n = some (m.config cap hcap))
    (hp : Proper cfgs evs) (hu : ((sent n evs).map Prod.snd).Nodup) (hq : AsQueue n evs) :
    ∃ accepted t b, v.tables.get? n = some t ∧ History n evs v accepted (Worker.taken t.w) ∧ (accepted.map Prod.snd).Nodup ∧ Worker.Booked m cap t.w b ∧
      accepted.map Prod.snd = (Worker.applied t.w.trace).map Item.key ++ t.w.queued.map Item.key := by
  obtain ⟨evs1, x, hx1, hx2, hx3, hx4⟩ := server_run hr
  have hx := hx3 hd
  subst hx
  obtain ⟨acc, hG⟩ := AsyncServer.Gave.run n hx1 hd
  obtain ⟨evs', u, V⟩ := sampler_run hr
  have hprop : AsyncSampler.Proper cfgs evs' := by
    intro name a ha c hc
    rcases V.others name a ha with ⟨h1, h2⟩ | ⟨i, cb, s, q, it, rfl, _, _, h4, h5, h6, h7⟩
    · cases a with
      | insert i cb => cases h1
      | mutate us ds => exact hp.mutate name us ds h2 c hc
      | _ => trivial
    · show c.admits i.priority
      rw [← h7]
      exact hp.insert s q h4 it h5 c (h6 ▸ hc)
  have hA := AsyncSampler.AInv.run hw V.run hprop
  have hH := AsyncSampler.Handed.run hw V.run hprop
  have hsim := V.sim hd
  -- the table
  obtain ⟨t, ht⟩ : ∃ t, v.tables.get? n = some t := by
    have h1 := hA.dom n
    cases h : v.tables.get? n with
    | some t => exact ⟨t, rfl⟩
    | none =>
      have h2 := hsim.tables.none h
      simp [AMap.contains, h2, hc] at h1
  obtain ⟨t', ht', hw', htodo⟩ := hsim.tables.some ht
  obtain ⟨c, as, hc', hrun, hok, has⟩ := (hA.tabs n t' ht').runs
  rw [hc] at hc'
  cases hc'
  rw [hw'] at hrun
  have hsent : ∀ s, part s acc <+: part s (sent n evs) := by
    intro s
    rw [AsyncServer.part_sent, ← hx4]
    cases hs : v.inserts.get? s with
    | none => rw [(hG.fresh s hs).1]; exact List.nil_prefix
    | some r => exact (hG.streams s r hs).order
  have hnd := accepted_nodup hsent hu
  have hact : ∀ a ∈ as, a.AsQueue := by
    intro a ha
    rcases has a ha with ⟨id, k, dl, rfl⟩ | g
    · trivial
    · rcases V.others n a g with ⟨_, h2⟩ | ⟨i, cb, _, _, _, rfl, _⟩
      · cases a with
        | mutate us ds => exact hq.deletes us ds h2
        | reset => exact hq.reset h2
        | close => exact hq.close h2
        | _ => trivial
      · trivial
  have hnew : Worker.NewItems t.w := by
    refine ⟨by rw [hG.table t ht]; exact hnd, fun i hi => ?_⟩
    obtain ⟨s, q, h1, it, h2, h3, h4⟩ := hG.items t ht i hi
    rw [hx4] at h1
    obtain ⟨e, he1, he2⟩ := List.mem_filterMap.mp h1
    rw [h4]
    split at he2
    · rename_i s' r
      split at he2
      · cases he2
        exact hq.new s' q it he1 h2 h3
      · cases he2
    · cases he2
  obtain ⟨b, hb⟩ := Worker.booked hrun hact hnew
  have hcl : Act.close ∉ as := fun g => hact _ g
  have hall := Worker.not_cancelled hrun hok hcl
  have hgot : ∀ q, v.got q = u.got q := fun q => by simp only [got, AsyncSampler.got, asSampler, V.streams]
  refine ⟨acc, t, b, ht, ⟨hsent, fun s r hs ho => ?_, fun s r hs k hk => ?_, fun q => ?_, fun q r hs hf hwt => ?_⟩, hnd, hb, ?_⟩
  · rw [AsyncServer.part_sent, ← hx4]
    exact (hG.streams s r hs).all ho
  · exact mem_part.mp ((hG.streams s r hs).conf k (.inl hk))
  · cases hs : u.streams.get? q with
    | none =>
      rw [hgot]
      simp [AsyncSampler.got, hs, takenFrom]
    | some r =>
      rw [hgot, AsyncSampler.taken_part]
      simp only [AsyncSampler.got, hs]
      have := (hH q r hs n t' ht').sub
      rw [hw'] at this
      exact ((List.sublist_append_left _ _).trans this).trans (List.sublist_append_left _ _)
  · have hs' : u.streams.get? q = some r := by rw [V.streams]; exact hs
    have hpend : AsyncSampler.pendOf u.tables n q = [] := by
      cases h : AsyncSampler.pendOf u.tables n q with
      | nil => rfl
      | cons y l =>
        have := ((hA.link q r hs').mine n y (by rw [h]; exact List.mem_cons_self)).1
        rw [hwt] at this
        cases this
    rw [AsyncSampler.pendOf_some ht'] at hpend
    obtain ⟨g1, g2⟩ := nothing_waits hpend
    have h3 := (hH q r hs' n t' ht').eq hf
    rw [g1, List.append_nil] at h3
    rw [hgot, ← hw', g2, ← h3]
    simp only [AsyncSampler.got, hs']
    rfl
  · rw [← hG.table t ht, ← hall, List.map_append]

end Verif.AsyncService
