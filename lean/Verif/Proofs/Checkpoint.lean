import Verif.Proofs.Choice
import Verif.Model.Checkpoint
/-
The order of FIFO and LIFO selectors is the order of the timestamps; restoring a checkpoint.
-/
namespace Verif
open Spec (Call Book Entry Discipline)
open Table (Op Mv MStep Eff Inv Path Core Tracks okPri)

/-- `x` comes before `y` in the order of the discipline, judged by the timestamps. -/
def Spec.Discipline.earlier : Discipline → Item → Item → Prop
  | .queue, x, y => x.insertedAt < y.insertedAt
  | .stack, x, y => y.insertedAt < x.insertedAt

/-- The order after a new key. -/
def Spec.Discipline.put : Discipline → List Key → Key → List Key
  | .queue, o, k => o ++ [k]
  | .stack, o, k => k :: o

theorem Sel.Inv.order_put {m : Discipline} {s b τ} (h : Sel.Inv m.kind s b τ) {k : Key} (hk : b k = none) (p : Pri) :
    (s.apply (.insert k p)).1.order = m.put s.order k := by
  rw [h.order_insert hk]; cases m <;> rfl

/-- The keys are listed in the order of the timestamps of their items. -/
def Timed (m : Discipline) (o : List Key) (data : AMap Key Item) : Prop :=
  o.Pairwise fun a b => ∀ x y, data.get? a = some x → data.get? b = some y → m.earlier x y

theorem Timed.congr {m o d d'} (h : Timed m o d)
    (hd : ∀ k it', d'.get? k = some it' → ∃ it, d.get? k = some it ∧ it'.insertedAt = it.insertedAt) :
    Timed m o d' := by
  refine List.Pairwise.imp ?_ h
  intro a b hab x y hx hy
  obtain ⟨x0, h1, h2⟩ := hd a x hx
  obtain ⟨y0, h3, h4⟩ := hd b y hy
  have := hab x0 y0 h1 h3
  cases m <;> simp only [Discipline.earlier] at this ⊢ <;> omega

theorem Timed.insert {m : Discipline} {o d} {i : Item} (h : Timed m o d) (hno : i.key ∉ o)
    (hlt : ∀ k it, d.get? k = some it → it.insertedAt < i.insertedAt) :
    Timed m (m.put o i.key) (d.insert i.key i) := by
  have hold : Timed m o (d.insert i.key i) := by
    have h1 := List.Pairwise.and_mem.mp h
    refine List.Pairwise.imp ?_ h1
    rintro a b ⟨ha, hb, hab⟩ x y hx hy
    rw [AMap.get?_insert, if_neg (by rintro rfl; exact hno ha)] at hx
    rw [AMap.get?_insert, if_neg (by rintro rfl; exact hno hb)] at hy
    exact hab x y hx hy
  have hnew : ∀ a ∈ o, ∀ x y, (d.insert i.key i).get? a = some x → (d.insert i.key i).get? i.key = some y →
      x.insertedAt < y.insertedAt := by
    intro a ha x y hx hy
    rw [AMap.get?_insert, if_neg (by rintro rfl; exact hno ha)] at hx
    simp at hy
    subst hy
    exact hlt a x hx
  cases m with
  | queue =>
    simp only [Discipline.put, Timed, List.pairwise_append, List.pairwise_cons, List.mem_singleton, List.not_mem_nil]
    refine ⟨hold, ⟨by simp, .nil⟩, ?_⟩
    rintro a ha b rfl x y hx hy
    exact hnew a ha x y hx hy
  | stack =>
    simp only [Discipline.put, Timed, List.pairwise_cons]
    refine ⟨?_, hold⟩
    intro a ha x y hx hy
    exact hnew a ha y x hy hx

/-- All timestamps in the table precede all times in `ts`. -/
def Past (ts : List Int) (d : AMap Key Item) : Prop := ∀ k it T, d.get? k = some it → T ∈ ts → it.insertedAt < T

theorem Past.congr {ts d d'} (h : Past ts d)
    (hd : ∀ k it', d'.get? k = some it' → ∃ it, d.get? k = some it ∧ it'.insertedAt = it.insertedAt) :
    Past ts d' := by
  intro k it T hk hT
  obtain ⟨it0, h1, h2⟩ := hd k it hk
  have := h k it0 T h1 hT
  omega

theorem Past.insert {ts d} {i : Item} (h : Past ts d) (hi : ∀ T ∈ ts, i.insertedAt < T) :
    Past ts (d.insert i.key i) := by
  intro k it T hk hT
  rw [AMap.get?_insert] at hk
  split at hk
  · simp at hk; subst hk; exact hi T hT
  · exact h k it T hk hT

theorem same_times_set {d : AMap Key Item} {it it' : Item} (hk : d.get? it.key = some it)
    (ht : it'.insertedAt = it.insertedAt) : ∀ k x', (d.insert it.key it').get? k = some x' →
      ∃ x, d.get? k = some x ∧ x'.insertedAt = x.insertedAt := by
  intro k x' hx
  rw [AMap.get?_insert] at hx
  split at hx
  · rename_i he; subst he; simp at hx; subst hx; exact ⟨it, hk, ht⟩
  · exact ⟨x', hx, rfl⟩

theorem same_times_erase {d : AMap Key Item} {k0 : Key} : ∀ k x', (d.erase k0).get? k = some x' →
      ∃ x, d.get? k = some x ∧ x'.insertedAt = x.insertedAt := by
  intro k x' hx
  rw [AMap.get?_erase] at hx
  split at hx
  · simp at hx
  · exact ⟨x', hx, rfl⟩

theorem Timed.filter {m o d} (h : Timed m o d) (k : Key) : Timed m (o.filter (· ≠ k)) (d.erase k) :=
  Timed.congr (List.Pairwise.sublist List.filter_sublist h) same_times_erase

/-- A move keeps the order, if inserts come with later timestamps. -/
theorem Timed.mstep {m : Discipline} {π : Table → Sel}
    (hπ : ∀ {t t' : Table} {d l e u cs}, Eff t t' d l e u cs → π t' = runCalls Sel.apply (π t) cs)
    {t t' : Table} {mv : Mv} (hinv : ∃ b τ, Sel.Inv m.kind (π t) b τ ∧ ∀ k, (b k).isSome = (t.data.get? k).isSome)
    (h : Timed m (π t).order t.data) (hm : MStep t mv t')
    (hnew : ∀ i v, mv = .insert i v → ∀ k it, t.data.get? k = some it → it.insertedAt < i.insertedAt) :
    Timed m (π t').order t'.data := by
  obtain ⟨b, τ, hi, hpres⟩ := hinv
  have ins : ∀ {i : Item} {v}, mv = .insert i v → t.data.get? i.key = none →
      Timed m ((π t).apply (.insert i.key i.priority)).1.order (t.data.insert i.key i) ∧
      ∃ b τ, Sel.Inv m.kind ((π t).apply (.insert i.key i.priority)).1 b τ := by
    intro i v he hk
    have hb : b i.key = none := by
      have := hpres i.key
      rw [hk] at this
      cases hb : b i.key <;> simp_all
    rw [hi.order_put hb]
    refine ⟨h.insert ?_ (hnew i v he), ?_⟩
    · rw [hi.mem_order, hb]; simp
    · exact ⟨_, _, (hi.step _).1⟩
  cases mv with
  | update it p =>
    obtain ⟨hk, he, _⟩ := hm
    rw [hπ he, he.data]
    show Timed m ((π t).apply (.update it.key p)).1.order _
    rw [hi.order_update]
    exact h.congr (same_times_set hk rfl)
  | insert i v =>
    cases v with
    | none =>
      obtain ⟨_, hk, _, he, _⟩ := hm
      rw [hπ he, he.data]
      exact (ins rfl hk).1
    | some v =>
      obtain ⟨_, hk, _, _, _, he, _⟩ := hm
      obtain ⟨h1, b', τ', h2⟩ := ins rfl hk
      rw [hπ he, he.data]
      show Timed m (((π t).apply (.insert i.key i.priority)).1.apply (.delete v.key)).1.order _
      rw [h2.order_delete]
      exact h1.filter v.key
  | sample it out gone =>
    obtain ⟨_, hk, _, _, he, _⟩ := hm
    have hset : Timed m (π t).order (t.data.insert it.key (Table.bump it)) := h.congr (same_times_set hk rfl)
    rw [hπ he, he.data]
    cases gone with
    | false => exact hset
    | true =>
      show Timed m ((π t).apply (.delete it.key)).1.order _
      rw [hi.order_delete]
      exact hset.filter it.key
  | delete it =>
    obtain ⟨hk, he, _⟩ := hm
    rw [hπ he, he.data]
    show Timed m ((π t).apply (.delete it.key)).1.order _
    rw [hi.order_delete]
    exact h.filter it.key
  | reset =>
    obtain ⟨he, _⟩ := hm
    rw [hπ he, he.data]
    show Timed m ((π t).apply .clear).1.order _
    rw [hi.order_clear]
    exact .nil
  | close =>
    obtain ⟨he, _⟩ := hm
    rw [hπ he, he.data]
    exact h

/-- A move keeps timestamps in the past. -/
theorem Past.mstep {ts : List Int} {t t' : Table} {mv : Mv} (h : Past ts t.data) (hm : MStep t mv t')
    (hnew : ∀ i v, mv = .insert i v → ∀ T ∈ ts, i.insertedAt < T) : Past ts t'.data := by
  cases mv with
  | update it p => obtain ⟨hk, he, _⟩ := hm; rw [he.data]; exact h.congr (same_times_set hk rfl)
  | insert i v =>
    have h1 := h.insert (hnew i v rfl)
    cases v with
    | none => obtain ⟨_, _, _, he, _⟩ := hm; rw [he.data]; exact h1
    | some v => obtain ⟨_, _, _, _, _, he, _⟩ := hm; rw [he.data]; exact h1.congr same_times_erase
  | sample it out gone =>
    obtain ⟨_, hk, _, _, he, _⟩ := hm
    have hset : Past ts (t.data.insert it.key (Table.bump it)) := h.congr (same_times_set hk rfl)
    rw [he.data]
    cases gone with
    | false => exact hset
    | true => exact hset.congr same_times_erase
  | delete it => obtain ⟨_, he, _⟩ := hm; rw [he.data]; exact h.congr same_times_erase
  | reset => obtain ⟨he, _⟩ := hm; rw [he.data]; intro k it T hk; simp at hk
  | close => obtain ⟨he, _⟩ := hm; rw [he.data]; exact h

/-- All stored items are well formed. -/
def AllValid (d : AMap Key Item) : Prop := ∀ k it, d.get? k = some it → Table.itemValid it = true

theorem AllValid.set {d : AMap Key Item} (h : AllValid d) {k : Key} {it : Item} (hv : Table.itemValid it = true) :
    AllValid (d.insert k it) := by
  intro k' x hx
  rw [AMap.get?_insert] at hx
  split at hx
  · simp at hx; subst hx; exact hv
  · exact h k' x hx

theorem AllValid.erase {d : AMap Key Item} (h : AllValid d) (k : Key) : AllValid (d.erase k) := by
  intro k' x hx
  rw [AMap.get?_erase] at hx
  split at hx
  · simp at hx
  · exact h k' x hx

theorem AllValid.mstep {t t' : Table} {mv : Mv} (h : AllValid t.data) (hm : MStep t mv t')
    (hnew : ∀ i v, mv = .insert i v → Table.itemValid i = true) : AllValid t'.data := by
  cases mv with
  | update it p => obtain ⟨hk, he, _⟩ := hm; rw [he.data]; exact h.set (it := { it with priority := p }) (h it.key it hk)
  | insert i v =>
    have h1 := h.set (k := i.key) (hnew i v rfl)
    cases v with
    | none => obtain ⟨_, _, _, he, _⟩ := hm; rw [he.data]; exact h1
    | some v => obtain ⟨_, _, _, _, _, he, _⟩ := hm; rw [he.data]; exact h1.erase _
  | sample it out gone =>
    obtain ⟨_, hk, _, _, he, _⟩ := hm
    have hset : AllValid (t.data.insert it.key (Table.bump it)) :=
      h.set (it := Table.bump it) (h it.key it hk)
    rw [he.data]
    cases gone with
    | false => exact hset
    | true => exact hset.erase _
  | delete it => obtain ⟨_, he, _⟩ := hm; rw [he.data]; exact h.erase _
  | reset => obtain ⟨he, _⟩ := hm; rw [he.data]; intro k it hk; simp at hk
  | close => obtain ⟨he, _⟩ := hm; rw [he.data]; exact h

theorem inserted_item {op : Op} {i : Item} (h : op.inserted = some i) :
    ∃ j now, Op.item op = some (j, now) ∧ i = { j with insertedAt := now } := by
  cases op <;> simp only [Op.inserted, Option.some.injEq, reduceCtorEq] at h
  all_goals exact ⟨_, _, rfl, h.symm⟩

theorem AllValid.path {kS kR t mvs t'} (hp : Path kS kR t mvs t') : AllValid t.data →
    (∀ i v, Mv.insert i v ∈ mvs → Table.itemValid i = true) → AllValid t'.data := by
  induction hp with
  | nil _ => intro h _; exact h
  | cons _ hm _ ih =>
    intro h hn
    exact ih (h.mstep hm (fun i v he => hn i v (by simp [he]))) (fun i v hi => hn i v (List.mem_cons_of_mem _ hi))

theorem Config.History.allValid {c : Config} {ops : List Op} {t : Table} (h : c.History ops t) : AllValid t.data := by
  obtain ⟨t', mvs, h1, h2, h3⟩ := Inv.run ops c.inv_init (fun op ho => c.okFor (h.admissible op ho))
  rw [h.run] at h1
  cases h1
  refine AllValid.path h2 (by intro k it hk; simp [Config.init, Table.make] at hk) ?_
  intro i v hm
  obtain ⟨op, ho, he⟩ := h3 i v hm
  obtain ⟨j, now, h4, rfl⟩ := inserted_item he
  exact h.valid op ho j now h4

/-- The times of the inserts. -/
def times (ops : List Op) : List Int := ops.filterMap fun op => (Op.item op).map Prod.snd

/-- Along a path without inserts. -/
theorem Timed.path {m : Discipline} {kS kR : SelKind} {π : Table → Sel} {t mvs t'}
    (hπ : ∀ {t t' : Table} {d l e u cs}, Eff t t' d l e u cs → π t' = runCalls Sel.apply (π t) cs)
    (hinv : ∀ t, Inv kS kR t → ∃ b τ, Sel.Inv m.kind (π t) b τ ∧ ∀ k, (b k).isSome = (t.data.get? k).isSome)
    {ts : List Int} (hp : Path kS kR t mvs t') (hn : ∀ i v, Mv.insert i v ∉ mvs)
    (h : Timed m (π t).order t.data) (hpast : Past ts t.data) : Timed m (π t').order t'.data ∧ Past ts t'.data := by
  induction hp with
  | nil _ => exact ⟨h, hpast⟩
  | cons hi hm _ ih =>
    refine ih (fun i v hc => hn i v (List.mem_cons_of_mem _ hc)) ?_ ?_
    · exact h.mstep hπ (hinv _ hi) hm (fun i v he => absurd (by simp [he]) (hn i v))
    · exact hpast.mstep hm (fun i v he => absurd (by simp [he]) (hn i v))

theorem Timed.run {m : Discipline} {kS kR : SelKind} {π : Table → Sel}
    (hπ : ∀ {t t' : Table} {d l e u cs}, Eff t t' d l e u cs → π t' = runCalls Sel.apply (π t) cs)
    (hinv : ∀ t, Inv kS kR t → ∃ b τ, Sel.Inv m.kind (π t) b τ ∧ ∀ k, (b k).isSome = (t.data.get? k).isSome)
    (ops : List Op) : ∀ {t t' : Table}, Inv kS kR t → (∀ op ∈ ops, op.okFor kS kR) → t.run ops = some t' →
      (times ops).Pairwise (· < ·) → Timed m (π t).order t.data → Past (times ops) t.data →
      Timed m (π t').order t'.data := by
  induction ops with
  | nil => intro t t' _ _ hr _ h _; cases hr; exact h
  | cons op ops ih =>
    intro t t' hi hok hr hts h hpast
    obtain ⟨mvs, hp, hres, hin⟩ := hi.step op (hok op (by simp))
    have hr' : (t.step op).1.run ops = some t' := by
      simp only [Table.run] at hr
      rcases hres with ⟨hq, _⟩ | ⟨hq, _⟩ | ⟨l, hq, _⟩ | ⟨c, hq, _⟩ <;> simpa only [hq] using hr
    have htail : (times ops).Pairwise (· < ·) ∧ Past (times ops) t.data := by
      simp only [times, List.filterMap_cons] at hts hpast
      cases ho : Option.map Prod.snd (Op.item op) with
      | none => rw [ho] at hts hpast; exact ⟨hts, hpast⟩
      | some T =>
        rw [ho] at hts hpast
        exact ⟨(List.pairwise_cons.mp hts).2, fun k it T' hk hT => hpast k it T' hk (List.mem_cons_of_mem _ hT)⟩
    have hstep : Timed m (π (t.step op).1).order (t.step op).1.data ∧ Past (times ops) (t.step op).1.data := by
      by_cases hno : ∀ i v, Mv.insert i v ∉ mvs
      · exact Timed.path hπ hinv hp hno h htail.2
      · have : ∃ i v, Mv.insert i v ∈ mvs := by
          apply Classical.byContradiction
          intro hc
          exact hno fun i v hm => hc ⟨i, v, hm⟩
        obtain ⟨i, v, hm⟩ := this
        obtain ⟨ho, rfl⟩ := hin i v hm
        obtain ⟨j, now, h4, rfl⟩ := inserted_item ho
        have hcons : times (op :: ops) = now :: times ops := by simp [times, h4]
        rw [hcons] at hts hpast
        generalize (t.step op).1 = t1 at *
        cases hp with
        | cons _ hms hp' =>
          cases hp'
          refine ⟨h.mstep hπ (hinv _ hi) hms ?_, htail.2.mstep hms ?_⟩
          · intro i v he k it hk
            cases he
            exact hpast k it now hk (by simp)
          · intro i v he T hT
            cases he
            exact (List.pairwise_cons.mp hts).1 T hT
    exact ih hp.fin (fun o ho => hok o (List.mem_cons_of_mem _ ho)) hr' htail.1 hstep.1 hstep.2

/-- After a history with an advancing clock, FIFO and LIFO samplers list the items by timestamp. -/
theorem Config.History.timed_sampler {c : Config} {ops : List Op} {t : Table} (h : c.History ops t)
    (hc : ClockAdvances ops) {m : Discipline} (hm : m.kind = c.sampler) : Timed m t.sampler.order t.data := by
  refine Timed.run (π := Table.sampler) (kS := c.sampler) (kR := c.remover) (fun he => he.samp) ?_ ops c.inv_init
    (fun op ho => c.okFor (h.admissible op ho)) h.run hc ?_ ?_
  · intro t hi
    obtain ⟨bS, τS, bR, τR, hcore⟩ := hi.core
    exact ⟨bS, τS, hm ▸ hcore.samp, hcore.isSomeS⟩
  · have : c.init.sampler.order = [] := by
      show c.sampler.make.order = []
      rw [← hm]; cases m <;> rfl
    rw [this]; exact .nil
  · intro k it T hk; simp [Config.init, Table.make] at hk

theorem Config.History.timed_remover {c : Config} {ops : List Op} {t : Table} (h : c.History ops t)
    (hc : ClockAdvances ops) {m : Discipline} (hm : m.kind = c.remover) : Timed m t.remover.order t.data := by
  refine Timed.run (π := Table.remover) (kS := c.sampler) (kR := c.remover) (fun he => he.rem) ?_ ops c.inv_init
    (fun op ho => c.okFor (h.admissible op ho)) h.run hc ?_ ?_
  · intro t hi
    obtain ⟨bS, τS, bR, τR, hcore⟩ := hi.core
    exact ⟨bR, τR, hm ▸ hcore.rem, hcore.isSomeR⟩
  · have : c.init.remover.order = [] := by
      show c.remover.make.order = []
      rw [← hm]; cases m <;> rfl
    rw [this]; exact .nil
  · intro k it T hk; simp [Config.init, Table.make] at hk

/-- The order of a FIFO or LIFO selector filled with the given keys one after the other. -/
def Spec.Discipline.listed (m : Discipline) (l : List Key) : List Key :=
  match m with
  | .queue => l
  | .stack => l.reverse

theorem Spec.Discipline.listed_put (m : Discipline) (l : List Key) (k : Key) :
    m.put (m.listed l) k = m.listed (l ++ [k]) := by
  cases m <;> simp [Discipline.put, Discipline.listed]

theorem Sel.Inv.accepted {kind : SelKind} {s b τ} (h : Sel.Inv kind s b τ) {k : Key} {e : Entry} (hk : b k = some e) :
    kind.accept e.pri = true := by
  cases kind <;> try rfl
  cases s <;> simp only [Sel.Inv] at h
  rename_i s
  have h1 := h.1.present k
  rw [hk] at h1
  obtain ⟨i, hi⟩ := Option.isSome_iff_exists.mp (by simpa using h1)
  obtain ⟨q, h2, h3, _⟩ := h.1.weight k i e hi hk
  simp [SelKind.accept, h2, Spec.acceptNonneg, h3]

theorem Sel.Inv.options {kind : SelKind} {s b τ} (h : Sel.Inv kind s b τ) : s.options = kind := by
  cases kind <;> cases s <;> simp only [Sel.Inv] at h <;> simp [Sel.options, h.2]

theorem Table.Core.okPri {kS kR t bS τS bR τR} (h : Core kS kR t bS τS bR τR) {k : Key} {it : Item}
    (hk : t.data.get? k = some it) : Table.okPri kS kR it.priority = true := by
  have h1 := h.agS k
  have h2 := h.agR k
  rw [hk] at h1 h2
  simp only [Option.map_some, Option.map_eq_some_iff] at h1 h2
  obtain ⟨e, he, hp⟩ := h1
  obtain ⟨e', he', hp'⟩ := h2
  simp only [Table.okPri, Bool.and_eq_true]
  exact ⟨hp ▸ h.samp.accepted he, hp' ▸ h.rem.accepted he'⟩

/-- Effect of `InsertCheckpointItem` if there is room. -/
theorem Table.Core.insertCheckpoint {kS kR t bS τS bR τR} (h : Core kS kR t bS τS bR τR) {i : Item}
    (hroom : t.data.size < t.maxSize) (hk : t.data.get? i.key = none) (hp : Table.okPri kS kR i.priority = true) :
    ∃ t', t.insertCheckpointItem i = (t', .ok ()) ∧
      Core kS kR t' (bS.step kS.accept τS (.insert i.key i.priority)) (τS + 1)
        (bR.step kR.accept τR (.insert i.key i.priority)) (τR + 1) ∧
      t' = { t with
        sampler := (t.sampler.apply (.insert i.key i.priority)).1
        remover := (t.remover.apply (.insert i.key i.priority)).1
        data := t.data.insert i.key i
        log := t.log ++ [ExtEvent.insert i]
        episodeRefs := Table.incRefs t.episodeRefs i.chunks } ∧ bS i.key = none ∧ bR i.key = none := by
  obtain ⟨pS, pR⟩ := Table.accept_of_okPri hp
  obtain ⟨hS1, hS2, _⟩ := h.samp.step (.insert i.key i.priority)
  obtain ⟨hR1, hR2, _⟩ := h.rem.step (.insert i.key i.priority)
  have hpS : bS i.key = none := by
    have := h.isSomeS i.key
    rw [hk] at this
    cases hb : bS i.key <;> simp_all
  have hpR : bR i.key = none := by
    have := h.isSomeR i.key
    rw [hk] at this
    cases hb : bR i.key <;> simp_all
  simp only [Spec.succeeds, hpS, pS, Option.isNone_none, Bool.and_self, if_true] at hS2
  simp only [Spec.succeeds, hpR, pR, Option.isNone_none, Bool.and_self, if_true] at hR2
  have hc : t.data.contains i.key = false := by simp [AMap.contains, hk]
  have hn : ¬ t.maxSize < t.data.size + 1 := by omega
  simp only [Table.insertCheckpointItem, hn, if_false, hc, Bool.false_eq_true, hS2, hR2]
  refine ⟨_, rfl, ⟨hS1, hR1, ?_, ?_, ?_, ?_⟩, rfl, hpS, hpR⟩
  · intro k'
    simp only [Book.step, AMap.get?_insert, pS, and_true, hpS]
    by_cases he : k' = i.key
    · simp [he]
    · simp only [he, if_false]; exact h.agS k'
  · intro k'
    simp only [Book.step, AMap.get?_insert, pR, and_true, hpR]
    by_cases he : k' = i.key
    · simp [he]
    · simp only [he, if_false]; exact h.agR k'
  · intro k' it' hk'
    simp only [AMap.get?_insert] at hk'
    split at hk'
    · rename_i he
      simp only [Option.some.injEq] at hk'
      subst hk' he
      rfl
    · exact h.own k' it' hk'
  · intro e
    rw [Table.incRefs_spec i.chunks h.refs e]
    have : Table.refCount (t.data.insert i.key i) e = Table.refCount t.data e + cntEp i.chunks e := by
      rw [Table.refCount, AMap.sumBy_insert_none hk, Table.refCount]; omega
    simp only [this]

theorem chunkByKey_spec (cs : List ChunkRef) : ∀ (m : AMap Key ChunkRef) (c : ChunkRef),
    (c ∈ cs ∨ m.get? c.key = some c) → (∀ a b, a ∈ cs → b ∈ cs → a.key = b.key → a = b) →
    (∀ a ∈ cs, ∀ b, m.get? a.key = some b → a = b) →
    (cs.foldl (fun m c => m.insert c.key c) m).get? c.key = some c := by
  induction cs with
  | nil => intro m c h _ _; simpa using h
  | cons a cs ih =>
    intro m c h hu hm
    simp only [List.foldl_cons]
    apply ih
    · rcases h with h | h
      · rcases List.mem_cons.mp h with rfl | h
        · exact .inr (by simp)
        · exact .inl h
      · right
        rw [AMap.get?_insert]
        split
        · rename_i he
          rw [he] at h
          have := hm a (by simp) c h
          rw [this]
        · exact h
    · intro x y hx hy; exact hu x y (List.mem_cons_of_mem _ hx) (List.mem_cons_of_mem _ hy)
    · intro x hx b hb
      rw [AMap.get?_insert] at hb
      split at hb
      · rename_i he
        simp at hb; subst hb
        exact hu x a (List.mem_cons_of_mem _ hx) (by simp) he
      · exact hm x (List.mem_cons_of_mem _ hx) b hb

theorem lookupChunks_spec (m : AMap Key ChunkRef) (cs : List ChunkRef) (h : ∀ c ∈ cs, m.get? c.key = some c) :
    lookupChunks m (cs.map ChunkRef.key) = some cs := by
  induction cs with
  | nil => rfl
  | cons c cs ih =>
    have h1 := h c (by simp)
    have h2 := ih (fun c hc => h c (List.mem_cons_of_mem _ hc))
    simp only [lookupChunks] at h2 ⊢
    simp [h1, h2]

theorem itemValid_keys {i : Item} (h : Table.itemValid i = true) : getChunkKeys i.traj = i.chunks.map ChunkRef.key := by
  simp only [Table.itemValid, Bool.and_eq_true, beq_iff_eq] at h
  exact h.2

/-- The state in the middle of a restore, after the items `done`. -/
structure Restoring (c : Config) (t : Table) (done : List Item) (u : Table) : Prop where
  core : ∃ bS τS bR τR, Core c.sampler c.remover u bS τS bR τR
  tracks : Tracks done u.data
  samp : ∀ m : Discipline, m.kind = c.sampler → u.sampler.order = m.listed (done.map Item.key)
  rem : ∀ m : Discipline, m.kind = c.remover → u.remover.order = m.listed (done.map Item.key)
  limiter : u.limiter = t.limiter.restored
  deleted : u.numDeletedEpisodes = t.numDeletedEpisodes
  unique : u.numUniqueSamples = t.numUniqueSamples
  maxSize : u.maxSize = t.maxSize
  maxTimes : u.maxTimesSampled = t.maxTimesSampled
  log : u.log = done.map ExtEvent.insert

theorem Restoring.run {c : Config} {t : Table} {m : AMap Key ChunkRef} (rest : List Item) :
    ∀ {done u}, Restoring c t done u → (done ++ rest).length ≤ t.maxSize → ((done ++ rest).map Item.key).Nodup →
      (∀ i ∈ rest, Table.okPri c.sampler c.remover i.priority = true ∧ Table.itemValid i = true ∧
        ∀ ch ∈ i.chunks, m.get? ch.key = some ch) →
      ∃ u', restoreItems m u (rest.map Item.proto) = .ok u' ∧ Restoring c t (done ++ rest) u' := by
  induction rest with
  | nil => intro done u h _ _ _; exact ⟨u, rfl, by simpa using h⟩
  | cons i rest ih =>
    intro done u h hlen hnd hok
    obtain ⟨hp, hv, hch⟩ := hok i (by simp)
    obtain ⟨bS, τS, bR, τR, hcore⟩ := h.core
    have hk : u.data.get? i.key = none := by
      cases hg : u.data.get? i.key with
      | none => rfl
      | some x =>
        obtain ⟨h1, h2⟩ := (h.tracks.mem _ _).mp hg
        rw [List.map_append, List.nodup_append] at hnd
        exact absurd h2 (hnd.2.2 _ (List.mem_map.mpr ⟨x, h1, rfl⟩) _ (by simp))
    have hroom : u.data.size < u.maxSize := by
      rw [← h.tracks.length, h.maxSize]
      simp at hlen; omega
    obtain ⟨u', h1, h2, h3, hbS, hbR⟩ := hcore.insertCheckpoint hroom hk hp
    have hl : lookupChunks m (getChunkKeys i.proto.traj) = some i.chunks := by
      show lookupChunks m (getChunkKeys i.traj) = _
      rw [itemValid_keys hv]; exact lookupChunks_spec m _ hch
    have he : ({ i.proto with chunks := i.chunks } : Item) = i := rfl
    have hr : Restoring c t (done ++ [i]) u' := by
      refine ⟨⟨_, _, _, _, h2⟩, ?_, ?_, ?_, ?_, ?_, ?_, ?_, ?_, ?_⟩
      · rw [h3]; exact (h.tracks.insert hk).2
      · intro d hd
        rw [h3]
        show (u.sampler.apply _).1.order = _
        have hs := hcore.samp
        rw [← hd] at hs
        rw [hs.order_put hbS, h.samp d hd, d.listed_put, List.map_append]; rfl
      · intro d hd
        rw [h3]
        show (u.remover.apply _).1.order = _
        have hs := hcore.rem
        rw [← hd] at hs
        rw [hs.order_put hbR, h.rem d hd, d.listed_put, List.map_append]; rfl
      · rw [h3]; exact h.limiter
      · rw [h3]; exact h.deleted
      · rw [h3]; exact h.unique
      · rw [h3]; exact h.maxSize
      · rw [h3]; exact h.maxTimes
      · rw [h3]; show u.log ++ _ = _; rw [h.log]; simp
    have hassoc : done ++ i :: rest = done ++ [i] ++ rest := by simp
    rw [hassoc] at hlen hnd
    obtain ⟨u'', g1, g2⟩ := ih hr hlen hnd (fun j hj => hok j (List.mem_cons_of_mem _ hj))
    refine ⟨u'', ?_, by rw [hassoc]; exact g2⟩
    simp only [List.map_cons, restoreItems, hl, he, h1, g1]

theorem Tracks.of_perm {m : AMap Key Item} {l : List Item} (h : l.Perm (m.entries.map Prod.snd))
    (hown : ∀ k it, m.get? k = some it → it.key = k) : Tracks l m := by
  have hkeys : (m.entries.map Prod.snd).map Item.key = m.keys := by
    rw [List.map_map]
    apply List.map_congr_left
    rintro ⟨k, it⟩ hm
    exact hown k it ((m.mem_entries_iff k it).mp hm)
  refine ⟨?_, ?_⟩
  · intro k it
    rw [h.mem_iff, List.mem_map, ← m.mem_entries_iff]
    constructor
    · intro hm; exact ⟨⟨_, hm, rfl⟩, hown k it ((m.mem_entries_iff k it).mp hm)⟩
    · rintro ⟨⟨⟨k', it'⟩, hm, rfl⟩, hk⟩
      have := hown k' it' ((m.mem_entries_iff k' it').mp hm)
      simp only at hk
      rw [← hk, this]; exact hm
  · rw [(h.map Item.key).nodup_iff, hkeys]; exact m.keys_nodup

theorem Table.SortedItems.restore_of {c : Config} {t : Table} (hinv : Inv c.sampler c.remover t) (hval : AllValid t.data) {items : List Item}
    (hs : t.SortedItems items) {chunks : List ChunkRef}
    (hcov : ∀ k it, t.data.get? k = some it → ∀ ch ∈ it.chunks, ch ∈ chunks)
    (huniq : ∀ a b, a ∈ chunks → b ∈ chunks → a.key = b.key → a = b) :
    ∃ t', restore (t.checkpoint items) chunks = .ok t' ∧ Restoring c t items t' := by
  obtain ⟨bS, τS, bR, τR, hcore⟩ := hinv.core
  have htr : Tracks items t.data := Tracks.of_perm hs.1 hcore.own
  have hsz := hinv.size
  rw [← htr.length] at hsz
  have hstart : Restoring c t [] { Table.make t.maxSize t.maxTimesSampled t.sampler.options t.remover.options
      t.limiter.restored with
      numDeletedEpisodes := t.numDeletedEpisodes
      numUniqueSamples := t.numUniqueSamples } := by
    rw [hcore.samp.options, hcore.rem.options]
    refine ⟨⟨_, _, _, _, Sel.Inv.make _, Sel.Inv.make _, ?_, ?_, ?_, ?_⟩, Tracks.empty, ?_, ?_, rfl, rfl, rfl, rfl,
      rfl, rfl⟩
    · intro k; simp [Table.make]
    · intro k; simp [Table.make]
    · intro k it hk; simp [Table.make] at hk
    · intro e; simp [Table.make, Table.refCount, AMap.sumBy, AMap.empty]; rfl
    · intro m hm
      show c.sampler.make.order = _
      rw [← hm]; cases m <;> rfl
    · intro m hm
      show c.remover.make.order = _
      rw [← hm]; cases m <;> rfl
  obtain ⟨u', h1, h2⟩ := Restoring.run (m := chunkByKey chunks) items hstart (by simpa using hsz)
    (by simpa using htr.nodup) (by
      intro i hi
      have hg := (htr.mem i.key i).mpr ⟨hi, rfl⟩
      refine ⟨hcore.okPri hg, hval _ _ hg, ?_⟩
      intro ch hch
      exact chunkByKey_spec chunks AMap.empty ch (.inl (hcov _ _ hg ch hch)) huniq (by simp))
  exact ⟨u', h1, by simpa using h2⟩

theorem Table.SortedItems.restore {c : Config} {ops : List Op} {t : Table} (h : c.History ops t) {items : List Item}
    (hs : t.SortedItems items) {chunks : List ChunkRef}
    (hcov : ∀ k it, t.data.get? k = some it → ∀ ch ∈ it.chunks, ch ∈ chunks)
    (huniq : ∀ a b, a ∈ chunks → b ∈ chunks → a.key = b.key → a = b) :
    ∃ t', restore (t.checkpoint items) chunks = .ok t' ∧ Restoring c t items t' :=
  hs.restore_of (Config.Reachable.inv ⟨ops, h.admissible, h.run⟩) h.allValid hcov huniq

/-- Two lists with the same members, both in the order of an asymmetric relation, are equal. -/
theorem eq_of_sorted {α : Type} {R : α → α → Prop} (hR : ∀ a b, R a b → ¬ R b a) : ∀ {l l' : List α},
    l.Pairwise R → l'.Pairwise R → l.Perm l' → l = l' := by
  intro l
  induction l with
  | nil => intro l' _ _ hp; exact hp.nil_eq
  | cons a l ih =>
    intro l' h h' hp
    cases l' with
    | nil => exact absurd hp.symm.nil_eq (by simp)
    | cons b l' =>
      have hab : a = b := by
        apply Classical.byContradiction
        intro hne
        have h1 : a ∈ b :: l' := hp.mem_iff.mp (by simp)
        have h2 : b ∈ a :: l := hp.mem_iff.mpr (by simp)
        rcases List.mem_cons.mp h1 with h1 | h1
        · exact hne h1
        rcases List.mem_cons.mp h2 with h2 | h2
        · exact hne h2.symm
        exact hR a b ((List.pairwise_cons.mp h).1 b h2) ((List.pairwise_cons.mp h').1 a h1)
      subst hab
      rw [ih (List.pairwise_cons.mp h).2 (List.pairwise_cons.mp h').2 (List.perm_cons a |>.mp hp)]

/-- The order of a selector that lists the keys by timestamp is that of the sorted items. -/
theorem Timed.eq_listed {m : Discipline} {o : List Key} {d : AMap Key Item} {items : List Item} (h : Timed m o d)
    (hnd : o.Nodup) (hmem : ∀ k, k ∈ o ↔ (d.get? k).isSome) (htr : Tracks items d)
    (hs : items.Pairwise (fun a b => ¬ b.insertedAt < a.insertedAt)) : o = m.listed (items.map Item.key) := by
  have hperm : o.Perm (items.map Item.key) := by
    rw [List.perm_ext_iff_of_nodup hnd htr.nodup]
    intro k
    rw [hmem, Option.isSome_iff_exists, List.mem_map]
    constructor
    · rintro ⟨it, hk⟩; exact ⟨it, ((htr.mem _ _).mp hk).1, ((htr.mem _ _).mp hk).2⟩
    · rintro ⟨it, h1, h2⟩; exact ⟨it, (htr.mem _ _).mpr ⟨h1, h2⟩⟩
  -- any two different keys have different timestamps
  have hdiff : ∀ a b, a ∈ o → b ∈ o → a ≠ b → ∀ x y, d.get? a = some x → d.get? b = some y →
      x.insertedAt ≠ y.insertedAt := by
    have : ∀ {o : List Key}, Timed m o d → ∀ a b, a ∈ o → b ∈ o → a ≠ b → ∀ x y, d.get? a = some x → d.get? b = some y →
      x.insertedAt ≠ y.insertedAt := by
      intro o
      induction o with
      | nil => intro _ a b ha; simp at ha
      | cons c o ih =>
        intro h a b ha hb hne x y hx hy
        have h1 := List.pairwise_cons.mp h
        rcases List.mem_cons.mp ha with rfl | ha2
        · rcases List.mem_cons.mp hb with rfl | hb
          · exact absurd rfl hne
          · have := h1.1 b hb x y hx hy
            cases m <;> simp only [Discipline.earlier] at this <;> omega
        · rcases List.mem_cons.mp hb with rfl | hb
          · have := h1.1 a ha2 y x hy hx
            cases m <;> simp only [Discipline.earlier] at this <;> omega
          · exact ih h1.2 a b ha2 hb hne x y hx hy
    exact this h
  let R : Key → Key → Prop := fun a b => ∃ x y, d.get? a = some x ∧ d.get? b = some y ∧ m.earlier x y
  have hR : ∀ a b, R a b → ¬ R b a := by
    rintro a b ⟨x, y, h1, h2, h3⟩ ⟨y', x', h4, h5, h6⟩
    rw [h1] at h5; rw [h2] at h4
    cases h4; cases h5
    cases m <;> simp only [Discipline.earlier] at h3 h6 <;> omega
  have ho : o.Pairwise R := by
    refine (List.Pairwise.and_mem.mp h).imp ?_
    rintro a b ⟨ha, hb, hab⟩
    obtain ⟨x, hx⟩ := Option.isSome_iff_exists.mp ((hmem a).mp ha)
    obtain ⟨y, hy⟩ := Option.isSome_iff_exists.mp ((hmem b).mp hb)
    exact ⟨x, y, hx, hy, hab x y hx hy⟩
  have hi : (items.map Item.key).Pairwise (fun a b => ∃ x y, d.get? a = some x ∧ d.get? b = some y ∧
      x.insertedAt < y.insertedAt) := by
    rw [List.pairwise_map]
    have hn := htr.nodup
    rw [List.Nodup, List.pairwise_map] at hn
    refine (List.Pairwise.and_mem.mp (List.pairwise_and_iff.mpr ⟨hs, hn⟩)).imp ?_
    rintro a b ⟨ha, hb, hab, hne⟩
    have h1 := (htr.mem a.key a).mpr ⟨ha, rfl⟩
    have h2 := (htr.mem b.key b).mpr ⟨hb, rfl⟩
    have := hdiff a.key b.key ((hmem _).mpr (by simp [h1])) ((hmem _).mpr (by simp [h2])) hne a b h1 h2
    exact ⟨a, b, h1, h2, by omega⟩
  cases m with
  | queue => exact eq_of_sorted hR ho hi hperm
  | stack =>
    refine eq_of_sorted hR ho ?_ (hperm.trans (List.reverse_perm _).symm)
    show (items.map Item.key).reverse.Pairwise R
    rw [List.pairwise_reverse]
    exact hi.imp (fun ⟨x, y, h1, h2, h3⟩ => ⟨y, x, h2, h1, h3⟩)

end Verif
