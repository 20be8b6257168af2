import Verif.Spec.Reach
import Verif.Proofs.TableSamples
/-
Invariants of all reachable tables.
-/
namespace Verif
open Table (Op Mv Inv Path MStep okPri LogOk SmpOk)

namespace Config

theorem okFor (c : Config) {op : Op} (h : c.Admissible op) : op.okFor c.sampler c.remover := by
  cases op <;> simp_all [Admissible, Op.okFor, admits, okPri]
  exact h

theorem inv_init (c : Config) : Inv c.sampler c.remover c.init := by
  refine Inv.make (spi := c.spi) (lo := c.minDiff) (hi := c.maxDiff) (ms := c.minSize) _ _ _ _ ?_
  simp [Limiter.make, c.minSize_pos]

theorem log_init (c : Config) : LogOk c.init [] := by
  refine LogOk.make (spi := c.spi) (lo := c.minDiff) (hi := c.maxDiff) (ms := c.minSize) _ _ _ _ ?_
  simp [Limiter.make, c.minSize_pos]

theorem Reachable.path {c : Config} {t : Table} (h : c.Reachable t) :
    ∃ mvs, Path c.sampler c.remover c.init mvs t := by
  obtain ⟨ops, hok, hrun⟩ := h
  obtain ⟨t', mvs, h1, h2, _⟩ := Inv.run ops c.inv_init (fun op ho => c.okFor (hok op ho))
  rw [hrun] at h1
  cases h1
  exact ⟨mvs, h2⟩

theorem ReachableFresh.reachable {c : Config} {t : Table} (h : c.ReachableFresh t) : c.Reachable t := by
  obtain ⟨ops, h1, _, h3⟩ := h
  exact ⟨ops, h1, h3⟩

theorem ReachableFresh.path {c : Config} {t : Table} (h : c.ReachableFresh t) :
    ∃ mvs, Path c.sampler c.remover c.init mvs t ∧ ∀ i v, Mv.insert i v ∈ mvs → i.timesSampled = 0 := by
  obtain ⟨ops, hok, hf, hrun⟩ := h
  obtain ⟨t', mvs, h1, h2, h3⟩ := Inv.run ops c.inv_init (fun op ho => c.okFor (hok op ho))
  rw [hrun] at h1
  cases h1
  refine ⟨mvs, h2, ?_⟩
  intro i v hm
  obtain ⟨op, ho, he⟩ := h3 i v hm
  cases op <;> simp only [Op.inserted, Option.some.injEq, reduceCtorEq] at he
  · rename_i j _ _; rw [← he]; exact hf _ ho j _ _ (.inl rfl)
  · rename_i j _ _; rw [← he]; exact hf _ ho j _ _ (.inr (.inl rfl))
  · rename_i j _ _; rw [← he]; exact hf _ ho j _ _ (.inr (.inr rfl))

theorem Reachable.inv {c : Config} {t : Table} (h : c.Reachable t) : Inv c.sampler c.remover t := by
  obtain ⟨mvs, hp⟩ := h.path; exact hp.fin

theorem Reachable.log {c : Config} {t : Table} (h : c.Reachable t) : ∃ l, LogOk t l := by
  obtain ⟨mvs, hp⟩ := h.path; exact LogOk.path hp c.log_init

theorem ReachableFresh.smp {c : Config} {t : Table} (h : c.ReachableFresh t) : SmpOk t := by
  obtain ⟨mvs, hp, hf⟩ := h.path
  exact SmpOk.path hp (SmpOk.make _ _ _ _ _) hf

/-- Configuration values never change. -/
structure Keeps (c : Config) (t : Table) : Prop where
  maxSize : t.maxSize = c.maxSize
  maxTimes : t.maxTimesSampled = c.maxTimesSampled
  spi : t.limiter.spi = c.spi
  minSize : t.limiter.minSize = c.minSize
  minDiff : t.limiter.minDiff = c.minDiff
  maxDiff : t.limiter.maxDiff = c.maxDiff

theorem Keeps.mstep {c : Config} {t t' : Table} {mv : Mv} (h : Keeps c t) (hm : MStep t mv t') : Keeps c t' := by
  have key : ∀ {data l ev u cs}, Table.Eff t t' data l ev u cs → l.spi = t.limiter.spi → l.minSize = t.limiter.minSize →
      l.minDiff = t.limiter.minDiff → l.maxDiff = t.limiter.maxDiff → Keeps c t' := by
    intro data l ev u cs he h1 h2 h3 h4
    exact ⟨he.maxSize.trans h.maxSize, he.maxTimes.trans h.maxTimes, by rw [he.limiter, h1, h.spi],
      by rw [he.limiter, h2, h.minSize], by rw [he.limiter, h3, h.minDiff], by rw [he.limiter, h4, h.maxDiff]⟩
  cases mv with
  | update it p => exact key hm.2.1 rfl rfl rfl rfl
  | insert i v =>
    cases v with
    | none => exact key hm.2.2.2.1 rfl rfl rfl rfl
    | some v => exact key hm.2.2.2.2.2.1 rfl rfl rfl rfl
  | sample it out gone => cases gone <;> exact key hm.2.2.2.2.1 rfl rfl rfl rfl
  | delete it => exact key hm.2.1 rfl rfl rfl rfl
  | reset => exact key hm.1 rfl rfl rfl rfl
  | close => exact key hm.1 rfl rfl rfl rfl

theorem Keeps.path {c : Config} {kS kR t mvs t'} (hp : Path kS kR t mvs t') : Keeps c t → Keeps c t' := by
  induction hp with
  | nil _ => exact id
  | cons _ hm _ ih => intro h; exact ih (h.mstep hm)

theorem Reachable.keeps {c : Config} {t : Table} (h : c.Reachable t) : Keeps c t := by
  obtain ⟨mvs, hp⟩ := h.path
  exact Keeps.path hp ⟨rfl, rfl, rfl, rfl, rfl, rfl⟩

/-- One more critical section. -/
theorem Reachable.step {c : Config} {t : Table} (h : c.Reachable t) {op : Op} (hop : c.Admissible op) :
    c.Reachable (t.step op).1 := by
  obtain ⟨ops, hok, hrun⟩ := h
  refine ⟨ops ++ [op], ?_, ?_⟩
  · intro o ho
    rcases List.mem_append.mp ho with h1 | h1
    · exact hok o h1
    · simp at h1; subst h1; exact hop
  · have happ : ∀ (a : List Op) (t : Table), t.run (a ++ [op]) = (t.run a).bind (fun t => t.run [op]) := by
      intro a
      induction a with
      | nil => intro t; rfl
      | cons o a ih =>
        intro t
        simp only [List.cons_append, Table.run]
        split
        · rfl
        · exact ih _
    rw [happ, hrun]
    have hi := Reachable.inv (c := c) (t := t) ⟨ops, hok, hrun⟩
    obtain ⟨mvs, hp, hr, _⟩ := hi.step op (c.okFor hop)
    simp only [Option.bind_some, Table.run]
    rcases hr with ⟨h, _⟩ | ⟨h, _⟩ | ⟨l, h, _⟩ | ⟨c, h, _⟩ <;> simp only [h]

end Config
end Verif
