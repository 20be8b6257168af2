import Verif.Model.Table
import Verif.Proofs.Sel
/-
The invariant of the table and the effect of its internal functions.
-/
namespace Verif
open Spec (Call Book Entry)

theorem nodup_eraseDups {α : Type} [BEq α] [LawfulBEq α] (l : List α) : l.eraseDups.Nodup := by
  induction hn : l.length using Nat.strongRecOn generalizing l with
  | _ n ih =>
    cases l with
    | nil => simp
    | cons a as =>
      rw [List.eraseDups_cons, List.nodup_cons]
      constructor
      · simp [List.mem_eraseDups]
      · have := List.length_filter_le (fun b => !b == a) as
        exact ih _ (by simp at hn; omega) _ rfl

theorem length_eq_of_nodup_of_mem {α : Type} {l l' : List α} (h : l.Nodup) (h' : l'.Nodup)
    (hm : ∀ a, a ∈ l ↔ a ∈ l') : l.length = l'.length :=
  ((List.perm_ext_iff_of_nodup h h').mpr hm).length_eq

namespace AMap
variable {κ α : Type} [DecidableEq κ]

/-- Sum of a quantity over all entries. -/
def sumBy (m : AMap κ α) (f : α → Nat) : Nat := (m.entries.map (fun e => f e.2)).sum

theorem sumBy_erase_none {m : AMap κ α} {k : κ} (h : m.get? k = none) (f : α → Nat) :
    (m.erase k).sumBy f = m.sumBy f := by
  have : m.entries.filter (fun e => e.1 ≠ k) = m.entries := by
    rw [List.filter_eq_self]
    rintro ⟨a, b⟩ hm
    have := (mem_entries_iff m a b).mp hm
    simp only [ne_eq, decide_not, Bool.not_eq_eq_eq_not, Bool.not_true, decide_eq_false_iff_not]
    rintro rfl
    rw [h] at this; simp at this
  simp only [sumBy, erase, this]

theorem sum_filter_key (l : List (κ × α)) (k : κ) (v : α) (f : α → Nat)
    (hn : (l.map Prod.fst).Nodup) (h : l.lookup k = some v) :
    ((l.filter (fun e => e.1 ≠ k)).map (fun e => f e.2)).sum + f v = (l.map (fun e => f e.2)).sum := by
  induction l with
  | nil => simp at h
  | cons e t ih =>
    obtain ⟨a, b⟩ := e
    simp only [List.map_cons, List.nodup_cons] at hn
    by_cases hk : k = a
    · subst hk
      simp at h
      subst h
      have : t.filter (fun e => e.1 ≠ k) = t := by
        rw [List.filter_eq_self]
        rintro ⟨x, y⟩ hm
        simp only [ne_eq, decide_not, Bool.not_eq_eq_eq_not, Bool.not_true, decide_eq_false_iff_not]
        rintro rfl
        exact hn.1 (List.mem_map.mpr ⟨_, hm, rfl⟩)
      rw [List.filter_cons_of_neg (by simp), this]
      simp only [List.map_cons, List.sum_cons]
      omega
    · rw [List.lookup_cons, beq_eq_false_iff_ne.mpr hk] at h
      have := ih hn.2 h
      rw [List.filter_cons_of_pos (by simpa using fun hc => hk hc.symm)]
      simp only [List.map_cons, List.sum_cons]
      omega

theorem sumBy_erase {m : AMap κ α} {k : κ} {v : α} (h : m.get? k = some v) (f : α → Nat) :
    (m.erase k).sumBy f + f v = m.sumBy f := sum_filter_key _ _ _ _ m.nodup h

theorem sumBy_insert_eq (m : AMap κ α) (k : κ) (v : α) (f : α → Nat) :
    (m.insert k v).sumBy f = f v + (m.erase k).sumBy f := rfl

theorem sumBy_insert_none {m : AMap κ α} {k : κ} (h : m.get? k = none) (v : α) (f : α → Nat) :
    (m.insert k v).sumBy f = f v + m.sumBy f := by
  rw [sumBy_insert_eq, sumBy_erase_none h]

theorem sumBy_insert_some {m : AMap κ α} {k : κ} {w : α} (h : m.get? k = some w) (v : α) (f : α → Nat)
    (he : f v = f w) : (m.insert k v).sumBy f = m.sumBy f := by
  rw [sumBy_insert_eq, he]; have := sumBy_erase h f; omega

theorem sumBy_pos_iff (m : AMap κ α) (f : α → Nat) :
    0 < m.sumBy f ↔ ∃ k v, m.get? k = some v ∧ 0 < f v := by
  constructor
  · intro h
    have : ∃ e ∈ m.entries, 0 < f e.2 := by
      apply Classical.byContradiction
      intro hc
      have hz : ∀ l : List (κ × α), (∀ e ∈ l, f e.2 = 0) → (l.map (fun e => f e.2)).sum = 0 := by
        intro l
        induction l with
        | nil => simp
        | cons a l ih =>
          intro hl
          simp only [List.map_cons, List.sum_cons]
          rw [ih (fun e he => hl e (List.mem_cons_of_mem _ he)), hl a (by simp)]
      have := hz m.entries (fun e he => by
        have : ¬ 0 < f e.2 := fun hp => hc ⟨e, he, hp⟩
        omega)
      simp only [sumBy] at h
      omega
    obtain ⟨⟨k, v⟩, hm, hp⟩ := this
    exact ⟨k, v, (mem_entries_iff m k v).mp hm, hp⟩
  · rintro ⟨k, v, hk, hp⟩
    have := sumBy_erase hk f
    omega

end AMap

/-- How many of the chunks belong to the episode. -/
def cntEp (cs : List ChunkRef) (e : Key) : Nat := cs.countP (fun c => c.episode == e)

theorem cntEp_cons (c : ChunkRef) (cs : List ChunkRef) (e : Key) :
    cntEp (c :: cs) e = cntEp cs e + if c.episode = e then 1 else 0 := by
  simp [cntEp, List.countP_cons]

/-- A reference map that holds the counts `f`, without zero entries. -/
def RefsOf (refs : AMap Key Nat) (f : Key → Nat) : Prop :=
  ∀ e, refs.get? e = if f e = 0 then none else some (f e)

namespace Table

theorem incRefs_spec (cs : List ChunkRef) : ∀ {refs : AMap Key Nat} {f : Key → Nat}, RefsOf refs f →
    RefsOf (incRefs refs cs) (fun e => f e + cntEp cs e) := by
  induction cs with
  | nil => intro refs f h; simpa [incRefs, cntEp] using h
  | cons c cs ih =>
    intro refs f h
    have h1 : RefsOf (refs.insert c.episode ((refs.get? c.episode).getD 0 + 1))
        (fun e => f e + if c.episode = e then 1 else 0) := by
      intro e
      rw [AMap.get?_insert]
      by_cases he : e = c.episode
      · subst he
        have := h c.episode
        simp only [if_true, this]
        by_cases hz : f c.episode = 0 <;> simp [hz]
      · have he' : ¬ c.episode = e := fun hc => he hc.symm
        simp only [he, if_false, he', Nat.add_zero]
        exact h e
    have := ih h1
    simp only [incRefs]
    intro e
    rw [this e]
    simp only [cntEp_cons]
    have e1 : (f e + if c.episode = e then 1 else 0) + cntEp cs e =
      f e + (cntEp cs e + if c.episode = e then 1 else 0) := by omega
    rw [e1]

theorem decRefs_spec (cs : List ChunkRef) : ∀ {refs : AMap Key Nat} {f : Key → Nat} (nd : Int), RefsOf refs f →
    (∀ e, cntEp cs e ≤ f e) →
    ∃ refs' nd', decRefs refs nd cs = some (refs', nd') ∧ RefsOf refs' (fun e => f e - cntEp cs e) ∧
      nd' + refs'.size = nd + refs.size := by
  induction cs with
  | nil =>
    intro refs f nd h _
    exact ⟨refs, nd, rfl, by simpa [cntEp] using h, rfl⟩
  | cons c cs ih =>
    intro refs f nd h hle
    have hc := hle c.episode
    rw [cntEp_cons] at hc
    simp only [if_true] at hc
    have hg : refs.get? c.episode = some (f c.episode) := by
      rw [h c.episode, if_neg (by omega)]
    simp only [decRefs, hg]
    by_cases h1 : f c.episode = 1
    · rw [if_pos h1]
      have hr : RefsOf (refs.erase c.episode) (fun e => f e - if c.episode = e then 1 else 0) := by
        intro e
        rw [AMap.get?_erase]
        by_cases he : e = c.episode
        · subst he; simp [h1]
        · have he' : ¬ c.episode = e := fun hc => he hc.symm
          simp only [he, if_false, he', Nat.sub_zero]
          exact h e
      obtain ⟨refs', nd', h2, h3, h4⟩ := ih (nd + 1) hr (by
        intro e
        have := hle e
        rw [cntEp_cons] at this
        split <;> rename_i hh <;> simp [hh] at this ⊢ <;> omega)
      refine ⟨refs', nd', h2, ?_, ?_⟩
      · intro e
        rw [h3 e]
        simp only [cntEp_cons]
        have : f e - (if c.episode = e then 1 else 0) - cntEp cs e =
          f e - (cntEp cs e + if c.episode = e then 1 else 0) := by omega
        rw [this]
      · have := AMap.size_erase_of_some hg
        omega
    · rw [if_neg h1]
      have hr : RefsOf (refs.insert c.episode (f c.episode - 1)) (fun e => f e - if c.episode = e then 1 else 0) := by
        intro e
        rw [AMap.get?_insert]
        by_cases he : e = c.episode
        · subst he
          simp only [if_true]
          rw [if_neg (by omega)]
        · have he' : ¬ c.episode = e := fun hc => he hc.symm
          simp only [he, if_false, he', Nat.sub_zero]
          exact h e
      obtain ⟨refs', nd', h2, h3, h4⟩ := ih nd hr (by
        intro e
        have := hle e
        rw [cntEp_cons] at this
        split <;> rename_i hh <;> simp [hh] at this ⊢ <;> omega)
      refine ⟨refs', nd', h2, ?_, ?_⟩
      · intro e
        rw [h3 e]
        simp only [cntEp_cons]
        have : f e - (if c.episode = e then 1 else 0) - cntEp cs e =
          f e - (cntEp cs e + if c.episode = e then 1 else 0) := by omega
        rw [this]
      · have := AMap.size_insert_of_some (f c.episode - 1) hg
        omega

/-- References to an episode from all items. -/
def refCount (m : AMap Key Item) (e : Key) : Nat := m.sumBy (fun it => cntEp it.chunks e)

/-- Selectors, data and episode references fit together. -/
structure Core (kS kR : SelKind) (t : Table) (bS : Book) (τS : Nat) (bR : Book) (τR : Nat) : Prop where
  samp : Sel.Inv kS t.sampler bS τS
  rem : Sel.Inv kR t.remover bR τR
  agS : ∀ k, (bS k).map Entry.pri = (t.data.get? k).map Item.priority
  agR : ∀ k, (bR k).map Entry.pri = (t.data.get? k).map Item.priority
  own : ∀ k it, t.data.get? k = some it → it.key = k
  refs : RefsOf t.episodeRefs (refCount t.data)

theorem Core.isSomeS {kS kR t bS τS bR τR} (h : Core kS kR t bS τS bR τR) (k : Key) :
    (bS k).isSome = (t.data.get? k).isSome := by
  have := congrArg Option.isSome (h.agS k); simpa using this

theorem Core.isSomeR {kS kR t bS τS bR τR} (h : Core kS kR t bS τS bR τR) (k : Key) :
    (bR k).isSome = (t.data.get? k).isSome := by
  have := congrArg Option.isSome (h.agR k); simpa using this

theorem Core.withLimiter {kS kR t bS τS bR τR} (h : Core kS kR t bS τS bR τR) (l : Limiter) :
    Core kS kR { t with limiter := l } bS τS bR τR :=
  ⟨h.samp, h.rem, h.agS, h.agR, h.own, h.refs⟩

/-- Effect of `DeleteItem` on a present key. -/
theorem Core.delete {kS kR t bS τS bR τR} (h : Core kS kR t bS τS bR τR) {k : Key} {it : Item}
    (hk : t.data.get? k = some it) :
    ∃ t', t.deleteItem k = (t', .ok ()) ∧
      Core kS kR t' (bS.step kS.accept τS (.delete k)) (τS + 1) (bR.step kR.accept τR (.delete k)) (τR + 1) ∧
      t'.data = t.data.erase k ∧ t'.limiter = t.limiter.delete ∧ t'.log = t.log ++ [.delete it] ∧
      t'.maxSize = t.maxSize ∧ t'.maxTimesSampled = t.maxTimesSampled ∧
      t'.numUniqueSamples = t.numUniqueSamples ∧
      t'.numDeletedEpisodes + t'.episodeRefs.size = t.numDeletedEpisodes + t.episodeRefs.size ∧
      t'.sampler = (t.sampler.apply (.delete k)).1 ∧ t'.remover = (t.remover.apply (.delete k)).1 := by
  obtain ⟨refs', nd', hd, hr, hs⟩ := decRefs_spec it.chunks t.numDeletedEpisodes h.refs (by
    intro e
    have := AMap.sumBy_erase hk (fun it => cntEp it.chunks e)
    simp only [refCount]; omega)
  obtain ⟨hS1, hS2, _⟩ := h.samp.step (.delete k)
  obtain ⟨hR1, hR2, _⟩ := h.rem.step (.delete k)
  have hpS : (bS k).isSome = true := by rw [h.isSomeS, hk]; rfl
  have hpR : (bR k).isSome = true := by rw [h.isSomeR, hk]; rfl
  simp only [Spec.succeeds, hpS, if_true] at hS2
  simp only [Spec.succeeds, hpR, if_true] at hR2
  simp only [deleteItem, hk, hd, hS2, hR2]
  refine ⟨_, rfl, ⟨hS1, hR1, ?_, ?_, ?_, ?_⟩, rfl, rfl, rfl, rfl, rfl, rfl, hs, rfl, rfl⟩
  · intro k'
    simp only [Book.step, AMap.get?_erase]
    by_cases he : k' = k
    · simp [he]
    · simp only [he, if_false]; exact h.agS k'
  · intro k'
    simp only [Book.step, AMap.get?_erase]
    by_cases he : k' = k
    · simp [he]
    · simp only [he, if_false]; exact h.agR k'
  · intro k' it' hk'
    simp only [AMap.get?_erase] at hk'
    split at hk'
    · simp at hk'
    · exact h.own k' it' hk'
  · intro e
    have := AMap.sumBy_erase hk (fun it => cntEp it.chunks e)
    rw [hr e]
    have e1 : refCount t.data e - cntEp it.chunks e = refCount (t.data.erase k) e := by
      simp only [refCount]; omega
    simp only [e1]

/-- Priority admitted by both selectors. -/
def okPri (kS kR : SelKind) (p : Pri) : Bool := kS.accept p && kR.accept p

theorem accept_of_okPri {kS kR : SelKind} {p : Pri} (h : okPri kS kR p = true) :
    kS.accept p = true ∧ kR.accept p = true := by
  simpa [okPri] using h

/-- Effect of `UpdateItem` on a present key. -/
theorem Core.update {kS kR t bS τS bR τR} (h : Core kS kR t bS τS bR τR) {k : Key} {it : Item}
    (hk : t.data.get? k = some it) {p : Pri} (hp : okPri kS kR p = true) :
    ∃ t', t.updateItem k p = (t', .ok ()) ∧
      Core kS kR t' (bS.step kS.accept τS (.update k p)) (τS + 1)
        (bR.step kR.accept τR (.update k p)) (τR + 1) ∧
      t'.data = t.data.insert k { it with priority := p } ∧ t'.limiter = t.limiter ∧
      t'.log = t.log ++ [.update { it with priority := p }] ∧
      t'.maxSize = t.maxSize ∧ t'.maxTimesSampled = t.maxTimesSampled ∧
      t'.numUniqueSamples = t.numUniqueSamples ∧
      t'.numDeletedEpisodes = t.numDeletedEpisodes ∧ t'.episodeRefs = t.episodeRefs ∧
      t'.sampler = (t.sampler.apply (.update k p)).1 ∧ t'.remover = (t.remover.apply (.update k p)).1 := by
  obtain ⟨pS, pR⟩ := accept_of_okPri hp
  obtain ⟨hS1, hS2, _⟩ := h.samp.step (.update k p)
  obtain ⟨hR1, hR2, _⟩ := h.rem.step (.update k p)
  have hpS : (bS k).isSome = true := by rw [h.isSomeS, hk]; rfl
  have hpR : (bR k).isSome = true := by rw [h.isSomeR, hk]; rfl
  simp only [Spec.succeeds, hpS, pS, Bool.and_self, if_true] at hS2
  simp only [Spec.succeeds, hpR, pR, Bool.and_self, if_true] at hR2
  simp only [updateItem, hk, hS2, hR2]
  refine ⟨_, rfl, ⟨hS1, hR1, ?_, ?_, ?_, ?_⟩, rfl, rfl, rfl, rfl, rfl, rfl, rfl, rfl, rfl, rfl⟩
  · intro k'
    simp only [Book.step, AMap.get?_insert, pS, and_true]
    by_cases he : k' = k
    · obtain ⟨e, hb⟩ := Option.isSome_iff_exists.mp hpS
      simp [he, hb]
    · simp only [he, if_false]; exact h.agS k'
  · intro k'
    simp only [Book.step, AMap.get?_insert, pR, and_true]
    by_cases he : k' = k
    · obtain ⟨e, hb⟩ := Option.isSome_iff_exists.mp hpR
      simp [he, hb]
    · simp only [he, if_false]; exact h.agR k'
  · intro k' it' hk'
    simp only [AMap.get?_insert] at hk'
    split at hk'
    · rename_i he
      simp only [Option.some.injEq] at hk'
      subst hk' he
      exact h.own k' it hk
    · exact h.own k' it' hk'
  · intro e
    show t.episodeRefs.get? e = _
    rw [h.refs e]
    have : refCount (t.data.insert k { it with priority := p }) e = refCount t.data e :=
      AMap.sumBy_insert_some hk _ _ rfl
    simp only [this]

/-- The state of `insertNew` before a possible eviction. -/
theorem Core.inserted {kS kR t bS τS bR τR} (h : Core kS kR t bS τS bR τR) {i : Item} (now : Int)
    (hk : t.data.get? i.key = none) (hp : okPri kS kR i.priority = true) (d : Draw) :
    ∃ t4, t.insertNew i now d = (if t4.maxSize < t4.data.size then
        match t4.remover.sample d with
        | .ok (victim, _) =>
          let r := t4.deleteItem victim
          match r.2 with
          | .ok () => ({ r.1 with limiter := r.1.limiter.insert }, .ok ())
          | e => (r.1, e)
        | .err c => (t4, .err c)
        | .died => (t4, .died)
      else ({ t4 with limiter := t4.limiter.insert }, .ok ())) ∧
      Core kS kR t4 (bS.step kS.accept τS (.insert i.key i.priority)) (τS + 1)
        (bR.step kR.accept τR (.insert i.key i.priority)) (τR + 1) ∧
      t4.data = t.data.insert i.key { i with insertedAt := now } ∧ t4.limiter = t.limiter ∧
      t4.log = t.log ++ [.insert { i with insertedAt := now }] ∧
      t4.maxSize = t.maxSize ∧ t4.maxTimesSampled = t.maxTimesSampled ∧
      t4.numUniqueSamples = t.numUniqueSamples ∧ t4.numDeletedEpisodes = t.numDeletedEpisodes ∧
      t4.sampler = (t.sampler.apply (.insert i.key i.priority)).1 ∧
      t4.remover = (t.remover.apply (.insert i.key i.priority)).1 := by
  obtain ⟨pS, pR⟩ := accept_of_okPri hp
  obtain ⟨hS1, hS2, _⟩ := h.samp.step (.insert i.key i.priority)
  obtain ⟨hR1, hR2, _⟩ := h.rem.step (.insert i.key i.priority)
  have hpS : bS i.key = none := by
    have := h.isSomeS i.key
    rw [hk] at this
    cases hb : bS i.key <;> simp_all
  have hpR : bR i.key = none := by
    have := h.isSomeR i.key
    rw [hk] at this
    cases hb : bR i.key <;> simp_all
  simp only [Spec.succeeds, hpS, pS, Option.isNone_none, Bool.and_self, if_true] at hS2
  simp only [Spec.succeeds, hpR, pR, Option.isNone_none, Bool.and_self, if_true] at hR2
  simp only [insertNew, hS2, hR2]
  refine ⟨{ t with data := t.data.insert i.key { i with insertedAt := now }
                   sampler := (t.sampler.apply (.insert i.key i.priority)).1
                   remover := (t.remover.apply (.insert i.key i.priority)).1
                   log := t.log ++ [ExtEvent.insert { i with insertedAt := now }]
                   episodeRefs := incRefs t.episodeRefs i.chunks },
    rfl, ⟨hS1, hR1, ?_, ?_, ?_, ?_⟩, rfl, rfl, rfl, rfl, rfl, rfl, rfl, rfl, rfl⟩
  · intro k'
    simp only [Book.step, AMap.get?_insert, pS, and_true, hpS]
    by_cases he : k' = i.key
    · simp [he]
    · simp only [he, if_false]; exact h.agS k'
  · intro k'
    simp only [Book.step, AMap.get?_insert, pR, and_true, hpR]
    by_cases he : k' = i.key
    · simp [he]
    · simp only [he, if_false]; exact h.agR k'
  · intro k' it' hk'
    simp only [AMap.get?_insert] at hk'
    split at hk'
    · rename_i he
      simp only [Option.some.injEq] at hk'
      subst hk' he
      rfl
    · exact h.own k' it' hk'
  · intro e
    rw [incRefs_spec i.chunks h.refs e]
    have : refCount (t.data.insert i.key { i with insertedAt := now }) e = refCount t.data e + cntEp i.chunks e := by
      rw [refCount, AMap.sumBy_insert_none hk, refCount]; simp; omega
    simp only [this]

/-- A sampler never returns a key that is not in the table. -/
theorem Core.sampleKey {kS kR t bS τS bR τR} (h : Core kS kR t bS τS bR τR) (hne : 0 < t.data.size) (d : Draw) :
    ∃ k pr it, t.sampler.sample d = .ok (k, pr) ∧ t.data.get? k = some it := by
  obtain ⟨_, h2⟩ := h.samp.sample d
  have hex : ∃ k, (bS k).isSome := by
    apply Classical.byContradiction
    intro hc
    have : t.data.size = 0 := (AMap.size_eq_zero_iff _).mpr (by
      intro k
      have := h.isSomeS k
      cases hd : t.data.get? k with
      | none => rfl
      | some v => exact absurd ⟨k, by rw [this, hd]; rfl⟩ hc)
    omega
  obtain ⟨k, pr, hs, hk⟩ := h2 hex
  rw [h.isSomeS] at hk
  obtain ⟨it, hit⟩ := Option.isSome_iff_exists.mp hk
  exact ⟨k, pr, it, hs, hit⟩

theorem Core.removeKey {kS kR t bS τS bR τR} (h : Core kS kR t bS τS bR τR) (hne : 0 < t.data.size) (d : Draw) :
    ∃ k pr it, t.remover.sample d = .ok (k, pr) ∧ t.data.get? k = some it := by
  obtain ⟨_, h2⟩ := h.rem.sample d
  have hex : ∃ k, (bR k).isSome := by
    apply Classical.byContradiction
    intro hc
    have : t.data.size = 0 := (AMap.size_eq_zero_iff _).mpr (by
      intro k
      have := h.isSomeR k
      cases hd : t.data.get? k with
      | none => rfl
      | some v => exact absurd ⟨k, by rw [this, hd]; rfl⟩ hc)
    omega
  obtain ⟨k, pr, hs, hk⟩ := h2 hex
  rw [h.isSomeR] at hk
  obtain ⟨it, hit⟩ := Option.isSome_iff_exists.mp hk
  exact ⟨k, pr, it, hs, hit⟩

end Table
end Verif
