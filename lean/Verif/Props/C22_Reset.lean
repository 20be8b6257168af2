import Verif.Proofs.TableTwin
import Verif.Proofs.TableLoose
import Verif.Props.TableDemo
/-
C22: `Reset`.
-/
namespace Verif
open Table (Op)

/-- Everything that can be asked of a table without changing it: `Get`, `size`, `num_episodes`,
`num_deleted_episodes`, and the counters in `info`. -/
def Table.look (t : Table) : (Key → Option Item) × Nat × Nat × Int × Int × Int × Int × Int :=
  (t.get, t.size, t.numEpisodes, t.numDeletedEpisodes, t.numUniqueSamples, t.limiter.inserts, t.limiter.deletes,
   t.limiter.samples)

theorem Table.Twin.look {pre : List ExtEvent} {t t' : Table} (h : Table.Twin pre t t') : t'.look = t.look := by
  obtain ⟨S, R, D, E, _, _, hD, hE, rfl⟩ := h
  simp only [Table.look, Table.re, Table.size, Table.numEpisodes, hD.size, hE.size]
  congr 1
  funext k
  exact hD k

theorem Table.Twin.log {pre : List ExtEvent} {t t' : Table} (h : Table.Twin pre t t') : t'.log = pre ++ t.log := by
  obtain ⟨S, R, D, E, _, _, _, _, rfl⟩ := h; rfl

theorem reset_twin {c : Config} {t : Table} (h : Loose c t) :
    Table.Twin t.reset.log (if t.limiter.cancelled then c.init.close else c.init) t.reset := by
  obtain ⟨bS, τS, hS⟩ := h.samp.inv
  obtain ⟨bR, τR, hR⟩ := h.rem.inv
  have k := h.keeps
  have e : ∀ b, (if b = true then c.init.close else c.init) =
      { c.init with limiter := { c.init.limiter with cancelled := b } } := by
    intro b; cases b <;> rfl
  rw [e]
  refine ⟨(t.sampler.apply .clear).1, (t.remover.apply .clear).1, _, _, hS.clear_equiv, hR.clear_equiv,
    AMap.Same.refl _, AMap.Same.refl _, ?_⟩
  simp only [Table.reset, Table.re, Config.init, Table.make, Limiter.reset, List.append_nil, k.maxSize, k.maxTimes,
    k.spi, k.minSize, k.minDiff, k.maxDiff]

/-- C22: after `Reset`, whatever happened before, the table is empty, all its counters are zero, and it
answers every further sequence of requests as a new table with the same configuration does; afterwards it
looks the same and has sent the same notifications. A table that was closed before stays closed. -/
theorem C22_reset (c : Config) (before after : List Op) (t : Table) (h : c.init.run before = some t) :
    let new := if t.limiter.cancelled then c.init.close else c.init
    t.reset.look = (fun _ => none, 0, 0, 0, 0, 0, 0, 0) ∧
    t.reset.replies after = new.replies after ∧
    (t.reset.run after).map Table.look = (new.run after).map Table.look ∧
    (t.reset.run after).map Table.log = (new.run after).map (fun u => t.reset.log ++ u.log) := by
  intro new
  have hl : Loose c t := (Loose.init c).run before h
  have tw := reset_twin hl
  refine ⟨rfl, tw.replies after, ?_, ?_⟩
  · rcases tw.run after with ⟨h1, h2⟩ | ⟨u, u', h1, h2, h3⟩
    · rw [h2]; simp only [new]; rw [h1]
    · rw [h2]; simp only [new]; rw [h1]; exact congrArg some h3.look
  · rcases tw.run after with ⟨h1, h2⟩ | ⟨u, u', h1, h2, h3⟩
    · rw [h2]; simp only [new]; rw [h1]; rfl
    · rw [h2]; simp only [new]; rw [h1]; exact congrArg some h3.log

/-! A run with items and samples, a reset, and the same run again. -/
example : ∃ t, demoCfg.init.run demoOps = some t ∧ t.size ≠ 0 ∧ t.limiter.samples ≠ 0 ∧ t.limiter.cancelled = false := by
  have : (demoCfg.init.run demoOps).any (fun t => t.size ≠ 0 && t.limiter.samples ≠ 0 && !t.limiter.cancelled) = true := by
    decide +kernel
  cases hr : demoCfg.init.run demoOps with
  | none => simp [hr] at this
  | some t => simp [hr] at this; exact ⟨t, rfl, this.1.1, this.1.2, this.2⟩

end Verif
