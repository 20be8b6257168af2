import Verif.Proofs.TableOrigin
import Verif.Proofs.WorkerProgress
/-
What is said of every item that is given to a table with a worker holds of every item that is sampled from it.
-/
namespace Verif
open Table (Op AllOf)

namespace Table

/-- The items that extensions are told have been sampled. -/
def SampledOf (P : Item → Prop) (t : Table) : Prop := ∀ x, ExtEvent.sample x ∈ t.log → P x

theorem MStep.origin {P : Item → Prop} (hP : StableOn P) {t t' : Table} {mv : Mv} (hm : MStep t mv t') (h : AllOf P t) (hs : SampledOf P t)
    (hi : ∀ i v, mv = .insert i v → P i) : AllOf P t' ∧ SampledOf P t' := by
  have log : ∀ {evs : List ExtEvent}, t'.log = t.log ++ evs → (∀ x, ExtEvent.sample x ∈ evs → P x) → SampledOf P t' := by
    intro evs e g x hx
    rw [e] at hx
    rcases List.mem_append.mp hx with hx | hx
    · exact hs x hx
    · exact g x hx
  have put : ∀ {k : Key} {it : Item}, P it → ∀ k' it', (t.data.insert k it).get? k' = some it' → P it' := by
    intro k it g k' it' e
    rw [AMap.get?_insert] at e
    split at e
    · cases e; exact g
    · exact h _ _ e
  cases mv with
  | update it p =>
    obtain ⟨h1, h2, _⟩ := hm
    refine ⟨fun k i g => ?_, log h2.log (by simp)⟩
    rw [h2.data] at g
    exact put (hP it { it with priority := p } rfl rfl rfl (h _ _ h1)) k i g
  | insert i v =>
    cases v with
    | none =>
      obtain ⟨_, _, _, h2, _⟩ := hm
      refine ⟨fun k j g => ?_, log h2.log (by simp)⟩
      rw [h2.data] at g
      exact put (hi i none rfl) k j g
    | some v =>
      obtain ⟨_, _, _, _, _, h2, _⟩ := hm
      refine ⟨fun k j g => ?_, log h2.log (by simp)⟩
      rw [h2.data, AMap.get?_erase] at g
      split at g
      · cases g
      · exact put (hi i (some v) rfl) k j g
  | sample it out gone =>
    obtain ⟨_, h1, _, _, h2, _⟩ := hm
    have hb : P (bump it) := hP it _ rfl rfl rfl (h _ _ h1)
    refine ⟨fun k j g => ?_, log h2.log (by intro x hx; cases gone <;> simp at hx <;> (subst hx; exact hb))⟩
    rw [h2.data] at g
    split at g
    · rw [AMap.get?_erase] at g
      split at g
      · cases g
      · exact put hb k j g
    · exact put hb k j g
  | delete it =>
    obtain ⟨h1, h2, _⟩ := hm
    refine ⟨fun k j g => ?_, log h2.log (by simp)⟩
    rw [h2.data, AMap.get?_erase] at g
    split at g
    · cases g
    · exact h _ _ g
  | reset =>
    obtain ⟨h2, _⟩ := hm
    refine ⟨fun k j g => ?_, log h2.log (by simp)⟩
    rw [h2.data] at g
    cases g
  | close =>
    obtain ⟨h2, _⟩ := hm
    refine ⟨fun k j g => ?_, log h2.log (by simp)⟩
    rw [h2.data] at g
    exact h _ _ g

theorem Path.origin {P : Item → Prop} (hP : StableOn P) {kS kR : SelKind} {t t' : Table} {mvs : List Mv} (hp : Path kS kR t mvs t') :
    AllOf P t → SampledOf P t → (∀ i v, Mv.insert i v ∈ mvs → P i) → AllOf P t' ∧ SampledOf P t' := by
  induction hp with
  | nil _ => exact fun h hs _ => ⟨h, hs⟩
  | cons _ hm _ ih =>
    intro h hs hi
    obtain ⟨h1, h2⟩ := hm.origin hP h hs fun i v e => hi i v (by simp [e])
    exact ih h1 h2 fun i v e => hi i v (List.mem_cons_of_mem _ e)

end Table

namespace Worker

/-- The items that the table has got were accepted. -/
structure From (P : Item → Prop) (w : W) : Prop where
  accepted : ∀ i ∈ w.accepted, P i
  trace : ∀ op ∈ w.trace, ∀ i now, Op.item op = some (i, now) → i ∈ applied w.trace

theorem From.step {P : Item → Prop} {w w' : W} {a : Act} (h : From P w) (ha : ∀ i cb, a = .insert i cb → Table.itemValid i = true → P i)
    (hs : Worker.step w a = some w') : From P w' := by
  obtain ⟨_, ht⟩ := tr_of_step hs
  obtain ⟨h1, h2⟩ := h
  have snoc : ∀ {op : Op}, (∀ i now, Op.item op = some (i, now) → i ∈ applied [op]) →
      ∀ o ∈ w.trace ++ [op], ∀ i now, Op.item o = some (i, now) → i ∈ applied (w.trace ++ [op]) := by
    intro op g o ho i now e
    rw [applied_snoc]
    rcases List.mem_append.mp ho with ho | ho
    · exact List.mem_append_left _ (h2 o ho i now e)
    · rw [List.mem_singleton] at ho
      subst ho
      exact List.mem_append_right _ (g i now e)
  have more : ∀ {i : Item} {cb : Nat}, a = .insert i cb → Table.itemValid i = true → ∀ j ∈ w.accepted ++ [i], P j := by
    intro i cb e hv j hj
    rcases List.mem_append.mp hj with hj | hj
    · exact h1 j hj
    · rw [List.mem_singleton] at hj
      subst hj
      exact ha _ cb e hv
  cases ht
  case insertOk hv _ => exact ⟨more rfl hv, h2⟩
  case insertFull hv _ => exact ⟨more rfl hv, h2⟩
  case sectionOk op r hl e ho => exact ⟨h1, snoc (by simp [show Op.item op = none by cases a <;> simp [Act.op] at ho <;> subst ho <;> rfl])⟩
  case sectionErr op r hl e ho => exact ⟨h1, snoc (by simp [show Op.item op = none by cases a <;> simp [Act.op] at ho <;> subst ho <;> rfl])⟩
  case sectionDied op hl e ho => exact ⟨h1, snoc (by simp [show Op.item op = none by cases a <;> simp [Act.op] at ho <;> subst ho <;> rfl])⟩
  case insOk => exact ⟨h1, snoc (by simp [Op.item, applied])⟩
  case insErr => exact ⟨h1, snoc (by simp [Op.item, applied])⟩
  case insDied => exact ⟨h1, snoc (by simp [Op.item, applied])⟩
  case smpFull => exact ⟨h1, snoc (by simp [Op.item])⟩
  case smpMore => exact ⟨h1, snoc (by simp [Op.item])⟩
  case smpErr => exact ⟨h1, snoc (by simp [Op.item])⟩
  case smpDied => exact ⟨h1, snoc (by simp [Op.item])⟩
  all_goals exact ⟨h1, h2⟩

/-- What holds of every item that is accepted holds of every item that is sampled. -/
theorem origin {P : Item → Prop} (hP : StableOn P) {c : Config} {as : List Act} {w : W} (ha : ∀ a ∈ as, a.Ok c)
    (hi : ∀ i cb, Act.insert i cb ∈ as → Table.itemValid i = true → P i) (hr : run (Worker.init c.init) as = some w) :
    AllOf P w.table ∧ Table.SampledOf P w.table := by
  have hS := Sound.run ha hr
  have hF : From P w := run_inv (From P) (fun a => ∀ i cb, a = .insert i cb → Table.itemValid i = true → P i)
    ⟨by simp [Worker.init], by simp [Worker.init]⟩ (fun _ _ _ h ha hs => h.step ha hs) (fun a ha i cb e hv => hi i cb (e ▸ ha) hv) hr
  have hrun := hS.seq.run hS.fine.alive
  obtain ⟨t', mvs, h1, h2, h3⟩ := Table.Inv.run w.trace (c.inv_init) fun op ho => c.okFor (hS.fine.trace op ho)
  rw [hrun] at h1
  cases h1
  refine h2.origin hP (fun k i g => by simp [Config.init, Table.make] at g) (fun x hx => by simp [Config.init, Table.make] at hx) fun i v hm => ?_
  obtain ⟨op, ho, e⟩ := h3 i v hm
  have key : ∀ j now, Op.item op = some (j, now) → P j := fun j now g =>
    hF.accepted j (hS.order.sub.subset (List.mem_append_left _ (List.mem_append_left _ (hF.trace op ho j now g))))
  have fin : ∀ (j : Item) (now : Int), P j → P { j with insertedAt := now } := fun j now g => hP j _ rfl rfl rfl g
  cases op <;> simp only [Table.Op.inserted, reduceCtorEq, Option.some.injEq] at e <;> subst e <;> exact fin _ _ (key _ _ rfl)

end Worker
end Verif
