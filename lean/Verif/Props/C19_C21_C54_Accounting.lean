import Verif.Props.TableDemo
/-
C19, C21, C54: episode counts, limiter counters and notifications.
-/
namespace Verif
open Table (Op LogOk)

/-- C54: the notifications received so far are consistent (no insertion of a present key, no change or
removal of an absent or different item) and the items reconstructed from them are exactly those in the
table. -/
theorem C54_notifications (c : Config) (t : Table) (h : c.Reachable t) :
    ∃ l, Spec.live t.log = some l ∧ l.length = t.size ∧ (l.map Item.key).Nodup ∧
      ∀ k it, t.get k = some it ↔ it ∈ l ∧ it.key = k := by
  obtain ⟨l, hl⟩ := h.log
  exact ⟨l, hl.live, hl.tracks.length, hl.tracks.nodup, hl.tracks.mem⟩

/-- C54: notifications are only ever appended, and a request that leaves the log alone leaves the items
alone. -/
theorem C54_complete (c : Config) (t : Table) (h : c.Reachable t) (op : Op) (hop : c.Admissible op) :
    t.log <+: (t.step op).1.log ∧ ((t.step op).1.log = t.log → ∀ k, (t.step op).1.get k = t.get k) := by
  constructor
  · obtain ⟨mvs, hp, _, _⟩ := h.inv.step op (c.okFor hop)
    have : ∀ {kS kR t mvs t'}, Table.Path kS kR t mvs t' → t.log <+: t'.log := by
      intro kS kR t mvs t' hp
      induction hp with
      | nil _ => exact List.prefix_refl _
      | cons _ hm _ ih =>
        refine List.IsPrefix.trans ?_ ih
        rename_i mv _ _ _ _ _
        cases mv with
        | update it p => rw [hm.2.1.log]; exact List.prefix_append _ _
        | insert i v => cases v with
          | none => rw [hm.2.2.2.1.log]; exact List.prefix_append _ _
          | some v => rw [hm.2.2.2.2.2.1.log]; exact List.prefix_append _ _
        | sample it out gone => rw [hm.2.2.2.2.1.log]; exact List.prefix_append _ _
        | delete it => rw [hm.2.1.log]; exact List.prefix_append _ _
        | reset => rw [hm.1.log]; exact List.prefix_append _ _
        | close => rw [hm.1.log]; exact List.prefix_append _ _
    exact this hp
  · intro he k
    obtain ⟨l, h1, _, _, h2⟩ := C54_notifications c t h
    obtain ⟨l', h1', _, _, h2'⟩ := C54_notifications c _ (h.step hop)
    rw [he, h1] at h1'
    cases h1'
    apply Option.ext
    intro it
    rw [h2, h2']

/-- C19: `num_episodes` is the number of distinct episodes of the items in the table, and
`num_deleted_episodes` the number of times that a deletion has removed the last item of an episode since
the last reset. -/
theorem C19_episodes (c : Config) (t : Table) (h : c.Reachable t) :
    ∃ l, (∀ it, it ∈ l ↔ t.get it.key = some it) ∧ t.numEpisodes = (Spec.episodes l).length ∧
      t.numDeletedEpisodes = Spec.endedEpisodes t.log := by
  obtain ⟨l, hl⟩ := h.log
  refine ⟨l, ?_, ?_, ?_⟩
  · intro it
    constructor
    · intro hm; exact (hl.tracks.mem _ _).mpr ⟨hm, rfl⟩
    · intro hm; exact ((hl.tracks.mem _ _).mp hm).1
  · obtain ⟨bS, τS, bR, τR, hc⟩ := h.inv.core
    exact (hl.tracks.episodes hc.refs).symm
  · have := hl.ended
    unfold Table.endedState at this
    unfold Spec.endedEpisodes
    rw [this]

/-- C21: the counters of the rate limiter are the numbers of insertions, removals and samples since the
last reset, and insertions minus removals is the number of items. -/
theorem C21_counters (c : Config) (t : Table) (h : c.Reachable t) :
    t.limiter.inserts = (Spec.inserted t.log : Nat) ∧ t.limiter.deletes = (Spec.deleted t.log : Nat) ∧
    t.limiter.samples = (Spec.sampled t.log : Nat) ∧
    t.limiter.inserts - t.limiter.deletes = (t.size : Nat) := by
  obtain ⟨l, hl⟩ := h.log
  exact ⟨hl.inserts, hl.deletes, hl.samples, h.inv.lim⟩

/-! The demonstration: two episodes in the table, two ended. -/
example : ∃ t, demoCfg.Reachable t ∧
    decide (t.numEpisodes = 2 ∧ t.numDeletedEpisodes = 2 ∧ Spec.endedEpisodes t.log = 2 ∧ t.limiter.inserts = 5 ∧
      Spec.inserted t.log = 5 ∧ ((Spec.live t.log).map fun l => l.map Item.key) = some [3, 4] ∧
      t.log.length = 13) = true :=
  Config.witness demoOps _ demo_ok (by decide +kernel)

end Verif
