import Verif.Spec.Info
import Verif.Proofs.Stats
import Verif.Proofs.Waiters
/-
The statistics of a table agree with the list of questions.
-/
namespace Verif
namespace Table

theorem deleteItem_samples (t : Table) (k : Key) : (t.deleteItem k).1.limiter.samples = t.limiter.samples := by
  unfold deleteItem
  cases t.data.get? k with
  | none => rfl
  | some it =>
    cases h2 : decRefs t.episodeRefs t.numDeletedEpisodes it.chunks with
    | none => simp [h2]
    | some x =>
      simp only [h2]
      split <;> rfl

theorem sampleOne_samples (t : Table) (rl : Bool) (d : Draw) : (t.sampleOne rl d).1.limiter.samples = t.limiter.samples := by
  unfold sampleOne
  split
  · rfl
  · rfl
  · split
    · rfl
    · simp only
      split
      · split <;> rw [deleteItem_samples]
      · rfl

theorem maybeCommit_samples {l l' : Limiter} (h : l.maybeCommitSample = some l') : l'.samples = l.samples + 1 := by
  unfold Limiter.maybeCommitSample at h
  split at h
  · cases h; rfl
  · cases h

theorem sampleMore_samples (rl : Bool) : ∀ (n : Nat) (t : Table) (acc : List Sampled) (ds : Nat → Draw),
    (t.sampleMore rl acc n ds).1.limiter.samples = t.limiter.samples + Info.moreCommits t rl n ds := by
  intro n
  induction n with
  | zero => intro t acc ds; simp [sampleMore, Info.moreCommits]
  | succ n ih =>
    intro t acc ds
    simp only [sampleMore, Info.moreCommits]
    cases hm : t.limiter.maybeCommitSample with
    | none => simp
    | some l =>
      have h1 := maybeCommit_samples hm
      have h2 := sampleOne_samples { t with limiter := l } rl (ds 0)
      simp only
      cases hr : ({ t with limiter := l }.sampleOne rl (ds 0)).2 with
      | ok s =>
        simp only
        rw [ih, h2]
        simp only [h1, Int.natCast_add]
        omega
      | err c => simp only [h2]; omega
      | died => simp only [h2]; omega

theorem sampleLoop_samples (t : Table) (rl : Bool) (n : Nat) (ds : Nat → Draw) :
    (t.sampleLoop rl n ds).1.limiter.samples = t.limiter.samples + Info.loopCommits t rl n ds := by
  have h2 := sampleOne_samples t rl (ds 0)
  simp only [sampleLoop, Info.loopCommits]
  cases hr : (t.sampleOne rl (ds 0)).2 with
  | ok s =>
    simp only
    have h3 := sampleMore_samples rl (n - 1) (t.sampleOne rl (ds 0)).1 [s] (fun i => ds (i + 1))
    rw [h2] at h3
    rw [← h3]
    split <;> rfl
  | err c => simp only [h2]; omega
  | died => simp only [h2]; omega

theorem insertNew_samples (t : Table) (i : Item) (now : Int) (d : Draw) : (t.insertNew i now d).1.limiter.samples = t.limiter.samples := by
  simp only [insertNew]
  split
  · split
    · split
      · split
        · split
          · simp only [Limiter.insert]; rw [deleteItem_samples]
          · rw [deleteItem_samples]
        · rfl
        · rfl
      · rfl
    · rfl
  · rfl

theorem insertResume_samples (t : Table) (i : Item) (now : Int) (d : Draw) :
    (t.insertResume i now d).1.limiter.samples = t.limiter.samples := by
  unfold insertResume
  split
  · rfl
  · rfl
  · split
    · rw [reply_fst, updateItem_limiter]
    · rw [reply_fst, insertNew_samples]

end Table

namespace Info
open Table (Op itemValid)
open Waiters (Act S Call Waiter Env)

/-- A question as the statistics see it. -/
def Asked.toRec (q : Asked) : Stats.Rec := ⟨q.start, q.stop.map fun e => if q.waited then e - q.start else 0⟩

theorem toRec_open (q : Asked) : q.toRec.blocked = none ↔ q.stop = none := by
  simp [Asked.toRec]

abbrev Kept (size : Nat) (l : List Asked) (m : Stats.S) : Prop := Stats.Inv size (l.map Asked.toRec) m

theorem Kept.create {size : Nat} {l : List Asked} {m : Stats.S} (h : Kept size l m) (id : Nat) (now : Int)
    (hfit : InTime size (l ++ [⟨id, now, none, true⟩])) : Kept size (l ++ [⟨id, now, none, true⟩]) (Stats.create m now) := by
  have := Stats.Inv.create h now ?_
  · simpa [Kept, Asked.toRec] using this
  · intro i c hc hb
    have e : l.map Asked.toRec ++ [⟨now, none⟩] = (l ++ [(⟨id, now, none, true⟩ : Asked)]).map Asked.toRec := by simp [Asked.toRec]
    rw [e, List.getElem?_map] at hc
    obtain ⟨q, hq, rfl⟩ := Option.map_eq_some_iff.mp hc
    have := hfit i q hq ((toRec_open q).mp hb)
    simpa using this

theorem Kept.instant {size : Nat} {l : List Asked} {m : Stats.S} (h : Kept size l m) (id : Nat) (now : Int) (hpos : 0 < size)
    (hfit : ∀ (i : Nat) (q : Asked), l[i]? = some q → q.stop = none → l.length + 1 ≤ i + size) :
    Kept size (l ++ [⟨id, now, some now, false⟩]) (Info.instant m now) := by
  have h1 : Kept size (l ++ [⟨id, now, none, true⟩]) (Stats.create m now) := by
    refine h.create id now fun i q hq ho => ?_
    rw [List.length_append, List.length_singleton]
    by_cases hi : i < l.length
    · rw [List.getElem?_append_left hi] at hq
      exact hfit i q hq ho
    · omega
  have hn : m.next = l.length := by simpa using h.next
  have h2 := Stats.Inv.finish h1 (k := l.length) (c := ⟨now, none⟩) (by simp [Asked.toRec]) rfl false now (by simp; omega)
  unfold Info.instant
  rw [hn]
  have e : ((l ++ [(⟨id, now, none, true⟩ : Asked)]).map Asked.toRec).set l.length ⟨now, some (if false = true then now - now else 0)⟩ =
      (l ++ [(⟨id, now, some now, false⟩ : Asked)]).map Asked.toRec := by
    simp [Asked.toRec, List.set_append]
  rw [e] at h2
  exact h2

theorem Kept.instants {size : Nat} (id : Nat) (now : Int) (hpos : 0 < size) : ∀ (n : Nat) {l : List Asked} {m : Stats.S}, Kept size l m →
    (∀ (i : Nat) (q : Asked), l[i]? = some q → q.stop = none → l.length + n ≤ i + size) →
    Kept size (l ++ List.replicate n ⟨id, now, some now, false⟩) (Info.instants m now n) := by
  intro n
  induction n with
  | zero => intro l m h _; simpa [Info.instants] using h
  | succ n ih =>
    intro l m h hfit
    have h1 := h.instant id now hpos fun i q hq ho => by have := hfit i q hq ho; omega
    have h2 := ih h1 fun i q hq ho => by
      by_cases hi : i < l.length
      · rw [List.getElem?_append_left hi] at hq
        have := hfit i q hq ho
        simp; omega
      · rw [List.getElem?_append_right (by omega)] at hq
        have : i - l.length = 0 := by
          have := (List.getElem?_eq_some_iff.mp hq).1
          simp at this; omega
        rw [this] at hq
        simp at hq
        subst hq
        simp at ho
    simp only [Info.instants]
    rw [List.append_assoc] at h2
    rw [List.replicate_succ]
    exact h2

theorem Kept.finish {size : Nat} {l : List Asked} {m : Stats.S} (h : Kept size l m) {k : Nat} {q : Asked} (hk : l[k]? = some q)
    (ho : q.stop = none) (hw : q.waited = true) (now : Int) (hfit : InTime size l) :
    Kept size (l.set k { q with stop := some now }) (Stats.finish m k true now) := by
  have h2 := Stats.Inv.finish h (k := k) (c := q.toRec) (by simp [hk]) ((toRec_open q).mpr ho) true now (by simpa using hfit k q hk ho)
  have e : (l.map Asked.toRec).set k ⟨q.toRec.start, some (if true = true then now - q.toRec.start else 0)⟩ =
      (l.set k { q with stop := some now }).map Asked.toRec := by
    rw [List.map_set]
    congr 1
    simp [Asked.toRec, hw]
  rw [e] at h2
  exact h2

theorem over_eq {l : List Asked} {k : Nat} {q : Asked} (now : Int) (hk : l[k]? = some q) (ho : q.stop = none)
    (huniq : ∀ (j : Nat) (r : Asked), l[j]? = some r → r.stop = none → r.id = q.id → j = k) :
    over q.id now l = l.set k { q with stop := some now } := by
  apply List.ext_getElem?
  intro j
  unfold over
  rw [List.getElem?_map, List.getElem?_set]
  by_cases hj : k = j
  · subst hj
    simp only [if_true, (List.getElem?_eq_some_iff.mp hk).1, hk, Option.map_some, ho, and_self]
  · rw [if_neg hj]
    cases hr : l[j]? with
    | none => rfl
    | some r =>
      simp only [Option.map_some]
      rw [if_neg]
      rintro ⟨h1, h2⟩
      exact hj (huniq j r hr h2 h1).symm

theorem over_eq' {l : List Asked} {k id : Nat} {q : Asked} (now : Int) (hk : l[k]? = some q) (ho : q.stop = none) (hid : q.id = id)
    (huniq : ∀ (j : Nat) (r : Asked), l[j]? = some r → r.stop = none → r.id = q.id → j = k) :
    over id now l = l.set k { q with stop := some now } := hid ▸ over_eq now hk ho huniq

theorem over_none {l : List Asked} {id : Nat} (now : Int) (h : ∀ (j : Nat) (r : Asked), l[j]? = some r → r.stop = none → r.id ≠ id) :
    over id now l = l := by
  unfold over
  conv => rhs; rw [← List.map_id l]
  apply List.map_congr_left
  intro r hr
  obtain ⟨j, hj⟩ := List.mem_iff_getElem?.mp hr
  rw [if_neg]
  · rfl
  · rintro ⟨h1, h2⟩
    exact h j r hj h2 h1

/-- The caller waits in the given call. -/
def Has (s : S) (id : Nat) (c : Call) : Prop := ∃ w ∈ s.waiters, w.id = id ∧ w.call = c

/-- The open questions are those of the callers that wait in calls of the kind. -/
structure Linked (p : Call → Bool) (has : Nat → Call → Prop) (events : AMap Nat Nat) (l : List Asked) : Prop where
  fwd : ∀ (id : Nat) (c : Call), has id c → p c = true → ∃ (k : Nat) (q : Asked), events.get? id = some k ∧ l[k]? = some q ∧ q.id = id ∧ q.stop = none
  bwd : ∀ (k : Nat) (q : Asked), l[k]? = some q → q.stop = none →
    q.waited = true ∧ ∃ c, has q.id c ∧ p c = true ∧ events.get? q.id = some k

theorem Linked.congr {p : Call → Bool} {has has' : Nat → Call → Prop} {ev ev' : AMap Nat Nat} {l : List Asked} (h : Linked p has ev l)
    (hh : ∀ id c, p c = true → (has' id c ↔ has id c)) (he : ∀ id c, p c = true → has id c → ev'.get? id = ev.get? id) :
    Linked p has' ev' l where
  fwd id c h1 h2 := by
    have h3 := (hh id c h2).mp h1
    rw [he id c h2 h3]
    exact h.fwd id c h3 h2
  bwd k q hk ho := by
    obtain ⟨h1, c, h2, h3, h4⟩ := h.bwd k q hk ho
    exact ⟨h1, c, (hh _ _ h3).mpr h2, h3, by rw [he _ _ h3 h2]; exact h4⟩

theorem Linked.closed {p : Call → Bool} {has : Nat → Call → Prop} {ev : AMap Nat Nat} {l : List Asked} (h : Linked p has ev l)
    (id : Nat) (now : Int) (n : Nat) : Linked p has ev (l ++ List.replicate n ⟨id, now, some now, false⟩) where
  fwd i c h1 h2 := by
    obtain ⟨k, q, h3, h4, h5⟩ := h.fwd i c h1 h2
    exact ⟨k, q, h3, by rw [List.getElem?_append_left (List.getElem?_eq_some_iff.mp h4).1]; exact h4, h5⟩
  bwd k q hk ho := by
    by_cases hi : k < l.length
    · rw [List.getElem?_append_left hi] at hk
      exact h.bwd k q hk ho
    · rw [List.getElem?_append_right (by omega)] at hk
      have := List.mem_of_getElem? hk
      rw [List.mem_replicate] at this
      rw [this.2] at ho
      simp at ho

theorem Linked.begin {p : Call → Bool} {has has' : Nat → Call → Prop} {ev : AMap Nat Nat} {l : List Asked} (h : Linked p has ev l)
    (id : Nat) (c : Call) (hp : p c = true) (now : Int) (hnew : ∀ k, ¬ has id k) (hh : ∀ i k, has' i k ↔ has i k ∨ (i = id ∧ k = c)) :
    Linked p has' (ev.insert id l.length) (l ++ [⟨id, now, none, true⟩]) where
  fwd i k h1 h2 := by
    by_cases hi : i = id
    · subst hi
      exact ⟨l.length, ⟨i, now, none, true⟩, by simp [AMap.get?_insert], by simp, rfl, rfl⟩
    · have h3 : has i k := by
        rcases (hh i k).mp h1 with h3 | ⟨h3, _⟩
        · exact h3
        · exact absurd h3 hi
      obtain ⟨m, q, h4, h5, h6⟩ := h.fwd i k h3 h2
      refine ⟨m, q, ?_, ?_, h6⟩
      · rw [AMap.get?_insert]; simp [hi, h4, Ne.symm hi]
      · rw [List.getElem?_append_left (List.getElem?_eq_some_iff.mp h5).1]; exact h5
  bwd k q hk ho := by
    by_cases hi : k < l.length
    · rw [List.getElem?_append_left hi] at hk
      obtain ⟨h1, c', h2, h3, h4⟩ := h.bwd k q hk ho
      refine ⟨h1, c', (hh _ _).mpr (.inl h2), h3, ?_⟩
      have : q.id ≠ id := fun e => hnew c' (e ▸ h2)
      rw [AMap.get?_insert]; simp [this, h4, Ne.symm this]
    · have hl := (List.getElem?_eq_some_iff.mp hk).1
      simp only [List.length_append, List.length_singleton] at hl
      have : k = l.length := by omega
      subst this
      simp at hk
      subst hk
      exact ⟨rfl, c, (hh _ _).mpr (.inr ⟨rfl, rfl⟩), hp, by simp [AMap.get?_insert]⟩

theorem Linked.uniq {p : Call → Bool} {has : Nat → Call → Prop} {ev : AMap Nat Nat} {l : List Asked} (h : Linked p has ev l)
    {j k : Nat} {q r : Asked} (hk : l[k]? = some q) (ho : q.stop = none) (hj : l[j]? = some r) (hr : r.stop = none) (e : r.id = q.id) : j = k := by
  obtain ⟨_, _, _, _, h1⟩ := h.bwd k q hk ho
  obtain ⟨_, _, _, _, h2⟩ := h.bwd j r hj hr
  rw [e, h1] at h2
  exact (Option.some.inj h2).symm

theorem Linked.finish {p : Call → Bool} {has has' : Nat → Call → Prop} {ev : AMap Nat Nat} {l : List Asked} (h : Linked p has ev l)
    {k : Nat} {q : Asked} (hk : l[k]? = some q) (ho : q.stop = none) (now : Int)
    (hh : ∀ i c, has' i c ↔ has i c ∧ i ≠ q.id) :
    Linked p has' (ev.erase q.id) (l.set k { q with stop := some now }) where
  fwd i c h1 h2 := by
    obtain ⟨h3, h4⟩ := (hh i c).mp h1
    obtain ⟨m, r, h5, h6, h7, h8⟩ := h.fwd i c h3 h2
    refine ⟨m, r, ?_, ?_, h7, h8⟩
    · rw [AMap.get?_erase]; simp [h4, h5, Ne.symm h4]
    · rw [List.getElem?_set]
      rw [if_neg]
      · exact h6
      · rintro rfl
        rw [hk] at h6
        cases h6
        exact h4 h7.symm
  bwd j r hj hr := by
    rw [List.getElem?_set] at hj
    by_cases e : k = j
    · subst e
      simp [(List.getElem?_eq_some_iff.mp hk).1] at hj
      subst hj
      simp at hr
    · rw [if_neg e] at hj
      obtain ⟨h1, c, h2, h3, h4⟩ := h.bwd j r hj hr
      have hne : r.id ≠ q.id := fun e' => e (h.uniq hk ho hj hr e').symm
      exact ⟨h1, c, (hh _ _).mpr ⟨h2, hne⟩, h3, by rw [AMap.get?_erase]; simp [hne, h4, Ne.symm hne]⟩

/-! ### The callers -/

theorem has_section (s : S) (id : Nat) (c : Call) (op : Op) (e : Env) (i : Nat) (k : Call) :
    Has (Waiters.section_ s id c op e) i k ↔ Has s i k ∨ ((s.table.step op).2 = .ok .blocked ∧ i = id ∧ k = c) := by
  have hw : (∃ w ∈ Waiters.signals s op e, w.id = i ∧ w.call = k) ↔ Has s i k := by
    constructor
    · rintro ⟨w, h1, h2, h3⟩
      obtain ⟨v, h4, h5, h6, _⟩ := (Waiters.signals_woken s op e).back w h1
      exact ⟨v, h4, h5 ▸ h2, h6 ▸ h3⟩
    · rintro ⟨w, h1, h2, h3⟩
      obtain ⟨v, h4, h5, h6, _⟩ := (Waiters.signals_woken s op e).forth w h1
      exact ⟨v, h4, h5.trans h2, h6.trans h3⟩
  rcases Waiters.section_cases s id c op e with ⟨hb, he⟩ | ⟨hb, he⟩ | ⟨hb, _, he⟩
  · rw [he, ← hw]
    unfold Has
    simp only [List.mem_append, List.mem_singleton, hb, true_and]
    constructor
    · rintro ⟨w, h1 | rfl, h2, h3⟩
      · exact .inl ⟨w, h1, h2, h3⟩
      · exact .inr ⟨h2.symm, h3.symm⟩
    · rintro (⟨w, h1, h2, h3⟩ | ⟨rfl, rfl⟩)
      · exact ⟨w, .inl h1, h2, h3⟩
      · exact ⟨_, .inr rfl, rfl, rfl⟩
  · rw [he, ← hw]
    simp [Has, hb]
  · rw [he, ← hw]
    simp [Has, hb]

theorem waits_iff (s : S) (id : Nat) : waits s id = true ↔ ∃ c, Has s id c := by
  unfold waits Has
  simp only [List.any_eq_true, decide_eq_true_eq]
  constructor
  · rintro ⟨w, h1, h2⟩
    exact ⟨w.call, w, h1, h2, rfl⟩
  · rintro ⟨c, w, h1, h2, _⟩
    exact ⟨w, h1, h2⟩

theorem has_filter (s : S) (j i : Nat) (k : Call) :
    Has { s with waiters := s.waiters.filter (fun v => v.id ≠ j) } i k ↔ Has s i k ∧ i ≠ j := by
  unfold Has
  simp only [List.mem_filter, decide_eq_true_eq]
  constructor
  · rintro ⟨w, ⟨h1, h2⟩, rfl, h4⟩
    exact ⟨⟨w, h1, rfl, h4⟩, h2⟩
  · rintro ⟨⟨w, h1, rfl, h4⟩, h2⟩
    exact ⟨w, ⟨h1, h2⟩, rfl, h4⟩

theorem has_uniq {s : S} (hb : Waiters.Base s) {id : Nat} {c k : Call} (h1 : Has s id c) (h2 : Has s id k) : c = k := by
  obtain ⟨w, hw, rfl, rfl⟩ := h1
  obtain ⟨v, hv, h3, rfl⟩ := h2
  rw [Waiters.map_inj hb.nodup hv hw h3]

theorem has_find {s : S} (hb : Waiters.Base s) {w : Waiter} (hw : w ∈ s.waiters) : s.waiters.find? (fun v => v.id = w.id) = some w := by
  cases hx : s.waiters.find? (fun v => v.id = w.id) with
  | none =>
    have := List.find?_eq_none.mp hx w hw
    simp at this
  | some v =>
    have h1 := List.find?_some hx
    simp only [decide_eq_true_eq] at h1
    rw [Waiters.map_inj hb.nodup (List.mem_of_find?_eq_some hx) hw h1]

def isInsert : Call → Bool
  | .insert _ => true
  | _ => false

def isSample : Call → Bool
  | .sample _ => true
  | _ => false

/-! ### What blocks -/

theorem insertResume_blocked (t : Table) (i : Item) (now : Int) (d : Draw) :
    (t.insertResume i now d).2 = .ok .blocked ↔ t.limiter.awaitInsert = .wait := by
  unfold Table.insertResume
  cases t.limiter.awaitInsert with
  | proceed =>
    simp only [reduceCtorEq, iff_false]
    split <;> exact Table.reply_not_blocked _
  | cancelled => simp
  | wait => simp

theorem sampleResume_blocked (t : Table) (n : Nat) (ds : Nat → Draw) :
    (t.sampleResume n ds).2 = .ok .blocked ↔ t.limiter.awaitSample = .wait := by
  unfold Table.sampleResume
  cases t.limiter.awaitSample with
  | proceed =>
    simp only [reduceCtorEq, iff_false]
    exact Table.sampleLoop_not_blocked _ _ _ _
  | cancelled => simp
  | wait => simp

/-- The statistics agree with the questions. -/
structure Good (size : Nat) (o : Obs) (ins smp : List Asked) : Prop where
  base : Waiters.Base o.base
  insKept : Kept size ins o.ins
  smpKept : Kept size smp o.smp
  insTime : InTime size ins
  smpTime : InTime size smp
  insLink : Linked isInsert (Has o.base) o.events ins
  smpLink : Linked isSample (Has o.base) o.events smp

theorem Good.init (size : Nat) (c : Config) : Good size (init size c.init) [] [] where
  base := .init c
  insKept := Stats.Inv.init size
  smpKept := Stats.Inv.init size
  insTime i q h := by simp at h
  smpTime i q h := by simp at h
  insLink := ⟨fun id c h => by obtain ⟨w, hw, _⟩ := h; simp [Info.init, Waiters.init] at hw, fun k q h => by simp at h⟩
  smpLink := ⟨fun id c h => by obtain ⟨w, hw, _⟩ := h; simp [Info.init, Waiters.init] at hw, fun k q h => by simp at h⟩

/-- From the time at the end to the time for one more. -/
theorem InTime.room {size : Nat} {l : List Asked} {n : Nat} {x : Asked} (h : InTime size (l ++ List.replicate n x)) :
    ∀ (i : Nat) (q : Asked), l[i]? = some q → q.stop = none → l.length + n ≤ i + size := by
  intro i q hq ho
  have := h i q (by rw [List.getElem?_append_left (List.getElem?_eq_some_iff.mp hq).1]; exact hq) ho
  simpa using this

theorem known_has {s : S} {id : Nat} (h : s.known id = false) (k : Call) : ¬ Has s id k := by
  rintro ⟨w, hw, h1, _⟩
  simp only [S.known, Bool.or_eq_false_iff, List.any_eq_false, decide_eq_true_eq] at h
  exact h.1 w hw h1

section call
variable {size : Nat} {o o' : Obs} {ins smp : List Asked} {id : Nat} {e : Env} {now : Int}

theorem Good.callInsert (hpos : 0 < size) (h : Good size o ins smp) (hk : o.base.known id = false) {i : Item} {b : S}
    (hbs : b = Waiters.section_ o.base id (.insert i) (.insert i e.now (e.draws 0)) e) (hb : Waiters.Base b)
    (ho : o' = section_ o id (.insert i e.now (e.draws 0)) now b)
    (hti : InTime size (askInsert o.base b now ins (.call id (.insert i) e))) :
    Good size o' (askInsert o.base b now ins (.call id (.insert i) e)) smp := by
  have hnew := known_has hk
  have hhas := has_section o.base id (.insert i) (.insert i e.now (e.draws 0)) e
  rw [← hbs] at hhas
  have hev : ∀ (j : Nat) (c : Call), Has o.base j c → ∀ x, (o.events.insert id x).get? j = o.events.get? j ∧ (o.events.erase id).get? j = o.events.get? j := by
    intro j c hj x
    have : j ≠ id := fun e => hnew c (e ▸ hj)
    rw [AMap.get?_insert, AMap.get?_erase]
    simp [this, Ne.symm this]
  -- the cases without a question
  have plain : (¬ (itemValid i = true ∧ o.base.table.data.get? i.key = none)) →
      insertEvents o.base.table o.ins (o.events.get? id) now (.insert i e.now (e.draws 0)) = (o.ins, none) ∧
      (o.base.table.step (.insert i e.now (e.draws 0))).2 ≠ .ok .blocked := by
    intro hn
    simp only [insertEvents, Table.step, Table.insertOrAssign]
    by_cases hv : itemValid i = true
    · cases hg : o.base.table.data.get? i.key with
      | none => exact absurd ⟨hv, hg⟩ hn
      | some it =>
        simp only [hv, Bool.not_true, Bool.false_eq_true, if_false, AMap.contains, hg, Option.isSome_some, if_true]
        exact ⟨trivial, Table.reply_not_blocked _⟩
    · simp [hv]
  by_cases hn : itemValid i = true ∧ o.base.table.data.get? i.key = none
  · obtain ⟨hv, hg⟩ := hn
    have hstep : o.base.table.step (.insert i e.now (e.draws 0)) = o.base.table.insertResume i e.now (e.draws 0) := by
      simp [Table.step, Table.insertOrAssign, hv, AMap.contains, hg]
    have hins : insertEvents o.base.table o.ins (o.events.get? id) now (.insert i e.now (e.draws 0)) =
        await o.ins o.base.table.limiter.awaitInsert none now := by
      simp [insertEvents, hv, AMap.contains, hg]
    rw [hstep] at hhas
    simp only [insertResume_blocked] at hhas
    simp only [askInsert, hv, hg, and_self, if_true] at hti ⊢
    have hnext : o.ins.next = ins.length := by simpa using h.insKept.next
    by_cases ha : o.base.table.limiter.awaitInsert = .wait
    · have hw : waits b id = true := (waits_iff b id).mpr ⟨.insert i, (hhas _ _).mpr (.inr ⟨ha, rfl, rfl⟩)⟩
      rw [hw] at hti ⊢
      simp only [if_true] at hti ⊢
      have hin2 : insertEvents o.base.table o.ins (o.events.get? id) now (.insert i e.now (e.draws 0)) = (Stats.create o.ins now, some ins.length) := by
        rw [hins, ha]; simp [await, hnext]
      subst ho
      simp only [section_, hin2, sampleEvents]
      have hh : ∀ j c, Has b j c ↔ Has o.base j c ∨ (j = id ∧ c = .insert i) := by
        intro j c; rw [hhas]; simp [ha]
      refine ⟨hb, h.insKept.create id now hti, h.smpKept, hti, h.smpTime, h.insLink.begin id (.insert i) rfl now hnew hh, ?_⟩
      refine h.smpLink.congr (fun j c hc => ?_) (fun j c hc hj => (hev j c hj _).1)
      rw [hh]
      constructor
      · rintro (h1 | ⟨_, rfl⟩)
        · exact h1
        · simp [isSample] at hc
      · exact .inl
    · have hh : ∀ j c, Has b j c ↔ Has o.base j c := by
        intro j c; rw [hhas]; simp [ha]
      have hw : ¬ waits b id = true := by
        rw [waits_iff]; rintro ⟨c, hc⟩
        exact hnew c ((hh _ _).mp hc)
      rw [if_neg hw] at hti ⊢
      have hin2 : insertEvents o.base.table o.ins (o.events.get? id) now (.insert i e.now (e.draws 0)) = (Info.instant o.ins now, none) := by
        rw [hins]
        cases hx : o.base.table.limiter.awaitInsert with
        | wait => exact absurd hx ha
        | _ => rfl
      subst ho
      simp only [section_, hin2, sampleEvents]
      refine ⟨hb, h.insKept.instant id now hpos (InTime.room (n := 1) hti), h.smpKept, hti, h.smpTime, ?_, ?_⟩
      · exact (h.insLink.closed id now 1).congr (fun j c _ => hh j c) (fun j c _ hj => (hev j c hj 0).2)
      · exact h.smpLink.congr (fun j c _ => hh j c) (fun j c _ hj => (hev j c hj 0).2)
  · obtain ⟨h1, h2⟩ := plain hn
    have hh : ∀ j c, Has b j c ↔ Has o.base j c := by
      intro j c; rw [hhas]; simp [h2]
    simp only [askInsert, if_neg hn] at hti ⊢
    subst ho
    simp only [section_, h1, sampleEvents]
    refine ⟨hb, h.insKept, h.smpKept, hti, h.smpTime, ?_, ?_⟩
    · exact h.insLink.congr (fun j c _ => hh j c) (fun j c _ hj => (hev j c hj 0).2)
    · exact h.smpLink.congr (fun j c _ => hh j c) (fun j c _ hj => (hev j c hj 0).2)

theorem Good.callSample (hpos : 0 < size) (h : Good size o ins smp) (hk : o.base.known id = false) {n : Nat} {b : S}
    (hbs : b = Waiters.section_ o.base id (.sample n) (.sample n e.draws) e) (hb : Waiters.Base b)
    (ho : o' = section_ o id (.sample n e.draws) now b)
    (hti : InTime size (askSample o.base b now smp (.call id (.sample n) e))) :
    Good size o' ins (askSample o.base b now smp (.call id (.sample n) e)) := by
  have hnew := known_has hk
  have hhas := has_section o.base id (.sample n) (.sample n e.draws) e
  rw [← hbs] at hhas
  have htab : b.table = (o.base.table.step (.sample n e.draws)).1 := by
    rw [hbs]
    rcases Waiters.section_cases o.base id (.sample n) (.sample n e.draws) e with ⟨_, he⟩ | ⟨_, he⟩ | ⟨_, _, he⟩ <;> rw [he]
  have hev : ∀ (j : Nat) (c : Call), Has o.base j c → ∀ x, (o.events.insert id x).get? j = o.events.get? j ∧ (o.events.erase id).get? j = o.events.get? j := by
    intro j c hj x
    have : j ≠ id := fun e => hnew c (e ▸ hj)
    rw [AMap.get?_insert, AMap.get?_erase]
    simp [this, Ne.symm this]
  -- a call that does not wait
  have fin : ∀ m, sampleEvents o.base.table o.smp (o.events.get? id) now (.sample n e.draws) =
        (Info.instants (Info.instant o.smp now) now m, none) →
      max 1 (granted o.base b) = m + 1 → (o.base.table.step (.sample n e.draws)).2 ≠ .ok .blocked →
      Good size o' ins (askSample o.base b now smp (.call id (.sample n) e)) := by
    intro m h1 h2 h3
    have hh : ∀ j c, Has b j c ↔ Has o.base j c := by
      intro j c; rw [hhas]; simp [h3]
    have hw : ¬ waits b id = true := by
      rw [waits_iff]; rintro ⟨c, hc⟩
      exact hnew c ((hh _ _).mp hc)
    simp only [askSample, if_neg hw, h2] at hti ⊢
    subst ho
    simp only [section_, h1, insertEvents]
    refine ⟨hb, h.insKept, Kept.instants id now hpos (m + 1) h.smpKept hti.room, h.insTime, hti, ?_, ?_⟩
    · exact h.insLink.congr (fun j c _ => hh j c) (fun j c _ hj => (hev j c hj 0).2)
    · exact (h.smpLink.closed id now (m + 1)).congr (fun j c _ => hh j c) (fun j c _ hj => (hev j c hj 0).2)
  cases hm : o.base.table.limiter.maybeCommitSample with
  | some l =>
    refine fin (loopCommits { o.base.table with limiter := l } false n e.draws) (by simp [sampleEvents, hm]) ?_ ?_
    · have h1 := Table.sampleLoop_samples { o.base.table with limiter := l } false n e.draws
      have h2 := Table.maybeCommit_samples hm
      simp only [granted, htab, Table.step, Table.sampleBatch, hm, h1, h2]
      omega
    · simp only [Table.step, Table.sampleBatch, hm]
      exact Table.sampleLoop_not_blocked _ _ _ _
  | none =>
    have hstep : o.base.table.step (.sample n e.draws) = o.base.table.sampleResume n e.draws := by
      simp [Table.step, Table.sampleBatch, hm]
    cases ha : o.base.table.limiter.awaitSample with
    | proceed =>
      refine fin (loopCommits { o.base.table with limiter := { o.base.table.limiter with samples := o.base.table.limiter.samples + 1 } } true n e.draws)
        (by simp [sampleEvents, hm, ha, await]) ?_ ?_
      · have h1 := Table.sampleLoop_samples { o.base.table with limiter := { o.base.table.limiter with samples := o.base.table.limiter.samples + 1 } } true n e.draws
        simp only [granted, htab, hstep, Table.sampleResume, ha, h1]
        omega
      · rw [hstep, Ne, sampleResume_blocked, ha]; simp
    | cancelled =>
      refine fin 0 (by simp [sampleEvents, hm, ha, await, Info.instants]) ?_ ?_
      · simp [granted, htab, hstep, Table.sampleResume, ha]
      · rw [hstep, Ne, sampleResume_blocked, ha]; simp
    | wait =>
      have hbl : (o.base.table.step (.sample n e.draws)).2 = .ok .blocked := by rw [hstep, sampleResume_blocked, ha]
      have hh : ∀ j c, Has b j c ↔ Has o.base j c ∨ (j = id ∧ c = .sample n) := by
        intro j c; rw [hhas]; simp [hbl]
      have hw : waits b id = true := (waits_iff b id).mpr ⟨.sample n, (hh _ _).mpr (.inr ⟨rfl, rfl⟩)⟩
      have hnext : o.smp.next = smp.length := by simpa using h.smpKept.next
      simp only [askSample, hw, if_true] at hti ⊢
      have hsm : sampleEvents o.base.table o.smp (o.events.get? id) now (.sample n e.draws) = (Stats.create o.smp now, some smp.length) := by
        simp [sampleEvents, hm, ha, await, hnext]
      subst ho
      simp only [section_, hsm, insertEvents]
      refine ⟨hb, h.insKept, h.smpKept.create id now hti, h.insTime, hti, ?_, h.smpLink.begin id (.sample n) rfl now hnew hh⟩
      refine h.insLink.congr (fun j c hc => ?_) (fun j c hc hj => (hev j c hj _).1)
      rw [hh]
      constructor
      · rintro (h1 | ⟨_, rfl⟩)
        · exact h1
        · simp [isInsert] at hc
      · exact .inl

theorem Good.callOther (h : Good size o ins smp) (hk : o.base.known id = false) {c : Call} {b : S} (hc : c.waits = false)
    (hbs : b = Waiters.section_ o.base id c (c.start e) e) (hb : Waiters.Base b)
    (ho : o' = section_ o id (c.start e) now b) : Good size o' ins smp := by
  have hnew := known_has hk
  have hhas := has_section o.base id c (c.start e) e
  rw [← hbs] at hhas
  have hnb : (o.base.table.step (c.start e)).2 ≠ .ok .blocked := by
    intro hbl
    obtain ⟨_, _, _, ⟨i, t, d, h1 | h1, _⟩ | ⟨i, t, h1 | h1, _⟩⟩ := Table.blocked_iff (Waiters.start_not_worker c e) hbl <;>
      cases c <;> simp [Call.start, Call.waits] at h1 hc
  have hh : ∀ j c', Has b j c' ↔ Has o.base j c' := by
    intro j c; rw [hhas]; simp [hnb]
  have hev : ∀ (j : Nat) (c : Call), Has o.base j c → (o.events.erase id).get? j = o.events.get? j := by
    intro j c hj
    have : j ≠ id := fun e => hnew c (e ▸ hj)
    rw [AMap.get?_erase]
    simp [this, Ne.symm this]
  have e1 : insertEvents o.base.table o.ins (o.events.get? id) now (c.start e) = (o.ins, none) := by
    cases c <;> simp [Call.waits] at hc <;> rfl
  have e2 : sampleEvents o.base.table o.smp (o.events.get? id) now (c.start e) = (o.smp, none) := by
    cases c <;> simp [Call.waits] at hc <;> rfl
  subst ho
  simp only [section_, e1, e2]
  exact ⟨hb, h.insKept, h.smpKept, h.insTime, h.smpTime, h.insLink.congr (fun j c _ => hh j c) (fun j c _ hj => hev j c hj),
    h.smpLink.congr (fun j c _ => hh j c) (fun j c _ hj => hev j c hj)⟩

theorem Good.wakeInsert (h : Good size o ins smp) {w : Waiter} (hw : w ∈ o.base.waiters) {i : Item} (hc : w.call = .insert i) {b : S}
    (hbs : b = Waiters.section_ { o.base with waiters := o.base.waiters.filter (fun v => v.id ≠ w.id) } w.id w.call (w.call.resume e) e)
    (hb : Waiters.Base b) (ho : o' = section_ o w.id (w.call.resume e) now b)
    (hti : InTime size (askInsert o.base b now ins (.wake w.id e))) :
    Good size o' (askInsert o.base b now ins (.wake w.id e)) (askSample o.base b now smp (.wake w.id e)) := by
  have hme : Has o.base w.id (.insert i) := ⟨w, hw, rfl, hc⟩
  have hr : w.call.resume e = .insertResume i e.now (e.draws 0) := by rw [hc]; rfl
  rw [hr] at hbs ho
  have hhas := has_section { o.base with waiters := o.base.waiters.filter (fun v => v.id ≠ w.id) } w.id w.call (.insertResume i e.now (e.draws 0)) e
  rw [← hbs] at hhas
  simp only [has_filter, Table.step, insertResume_blocked, hc] at hhas
  have htab : b.table = (o.base.table.step (.insertResume i e.now (e.draws 0))).1 := by
    rw [hbs]
    rcases Waiters.section_cases { o.base with waiters := o.base.waiters.filter (fun v => v.id ≠ w.id) } w.id w.call (.insertResume i e.now (e.draws 0)) e with
      ⟨_, he⟩ | ⟨_, he⟩ | ⟨_, _, he⟩ <;> rw [he]
  have hg : granted o.base b = 0 := by
    simp [granted, htab, Table.step, Table.insertResume_samples]
  obtain ⟨k, q, h1, h2, h3, h4⟩ := h.insLink.fwd _ _ hme rfl
  have hnos : over w.id now smp = smp := by
    refine over_none now fun j r hj hs e => ?_
    obtain ⟨_, c, h5, h6, _⟩ := h.smpLink.bwd j r hj hs
    rw [e] at h5
    rw [has_uniq h.base h5 hme] at h6
    simp [isSample] at h6
  have hev : ∀ (j : Nat) (c : Call), isSample c = true → Has o.base j c → (o.events.erase w.id).get? j = o.events.get? j := by
    intro j c hc hj
    have : j ≠ w.id := by
      rintro rfl
      rw [has_uniq h.base hj hme] at hc
      simp [isSample] at hc
    rw [AMap.get?_erase]
    simp [this, Ne.symm this]
  by_cases ha : o.base.table.limiter.awaitInsert = .wait
  · have hh : ∀ j c, Has b j c ↔ Has o.base j c := by
      intro j c; rw [hhas]
      constructor
      · rintro (⟨h5, _⟩ | ⟨_, rfl, rfl⟩)
        · exact h5
        · exact hme
      · intro h5
        by_cases e : j = w.id
        · subst e; exact .inr ⟨ha, rfl, has_uniq h.base h5 hme⟩
        · exact .inl ⟨h5, e⟩
    have hwt : waits b w.id = true := (waits_iff b w.id).mpr ⟨_, (hh _ _).mpr hme⟩
    simp only [askInsert, askSample, hwt, if_true] at hti ⊢
    subst ho
    have hev2 : ∀ (j : Nat), (o.events.insert w.id k).get? j = o.events.get? j := by
      intro j
      rw [AMap.get?_insert]
      split
      · rename_i e; rw [e, h1]
      · rfl
    simp only [section_, insertEvents, sampleEvents, await, h1, ha]
    exact ⟨hb, h.insKept, h.smpKept, hti, h.smpTime, h.insLink.congr (fun j c _ => hh j c) (fun j c _ hj => hev2 j),
      h.smpLink.congr (fun j c _ => hh j c) (fun j c _ hj => hev2 j)⟩
  · have hh : ∀ j c, Has b j c ↔ Has o.base j c ∧ j ≠ q.id := by
      intro j c; rw [hhas]; simp [ha, h3]
    have hwt : ¬ waits b w.id = true := by
      rw [waits_iff]; rintro ⟨c, hc⟩
      exact ((hh _ _).mp hc).2 h3.symm
    simp only [askInsert, askSample, if_neg hwt, hg, hnos] at hti ⊢
    rw [← h3, over_eq now h2 h4 (fun j r hj hr => h.insLink.uniq h2 h4 hj hr)] at hti ⊢
    have hin2 : insertEvents o.base.table o.ins (o.events.get? w.id) now (.insertResume i e.now (e.draws 0)) = (Stats.finish o.ins k true now, none) := by
      rw [h1]
      simp only [insertEvents]
      cases hx : o.base.table.limiter.awaitInsert with
      | wait => exact absurd hx ha
      | _ => rfl
    subst ho
    simp only [section_, hin2, sampleEvents]
    have hwd := (h.insLink.bwd k q h2 h4).1
    refine ⟨hb, h.insKept.finish h2 h4 hwd now h.insTime, by simpa using h.smpKept, hti, by simpa using h.smpTime, ?_, ?_⟩
    · have := h.insLink.finish h2 h4 now hh
      rw [h3] at this ⊢
      exact this
    · simp only [Nat.zero_sub, List.replicate_zero, List.append_nil]
      refine h.smpLink.congr (fun j c hc => ?_) (fun j c hc hj => hev j c hc hj)
      rw [hh]
      constructor
      · exact fun x => x.1
      · intro h5
        refine ⟨h5, ?_⟩
        rintro rfl
        rw [h3] at h5
        rw [has_uniq h.base h5 hme] at hc
        simp [isSample] at hc

theorem Good.wakeSample (hpos : 0 < size) (h : Good size o ins smp) {w : Waiter} (hw : w ∈ o.base.waiters) {n : Nat} (hc : w.call = .sample n) {b : S}
    (hbs : b = Waiters.section_ { o.base with waiters := o.base.waiters.filter (fun v => v.id ≠ w.id) } w.id w.call (w.call.resume e) e)
    (hb : Waiters.Base b) (ho : o' = section_ o w.id (w.call.resume e) now b)
    (hti : InTime size (askSample o.base b now smp (.wake w.id e))) :
    Good size o' (askInsert o.base b now ins (.wake w.id e)) (askSample o.base b now smp (.wake w.id e)) := by
  have hme : Has o.base w.id (.sample n) := ⟨w, hw, rfl, hc⟩
  have hr : w.call.resume e = .sampleResume n e.draws := by rw [hc]; rfl
  rw [hr] at hbs ho
  have hhas := has_section { o.base with waiters := o.base.waiters.filter (fun v => v.id ≠ w.id) } w.id w.call (.sampleResume n e.draws) e
  rw [← hbs] at hhas
  simp only [has_filter, Table.step, sampleResume_blocked, hc] at hhas
  have htab : b.table = (o.base.table.step (.sampleResume n e.draws)).1 := by
    rw [hbs]
    rcases Waiters.section_cases { o.base with waiters := o.base.waiters.filter (fun v => v.id ≠ w.id) } w.id w.call (.sampleResume n e.draws) e with
      ⟨_, he⟩ | ⟨_, he⟩ | ⟨_, _, he⟩ <;> rw [he]
  obtain ⟨k, q, h1, h2, h3, h4⟩ := h.smpLink.fwd _ _ hme rfl
  have hnoi : over w.id now ins = ins := by
    refine over_none now fun j r hj hs e => ?_
    obtain ⟨_, c, h5, h6, _⟩ := h.insLink.bwd j r hj hs
    rw [e] at h5
    rw [has_uniq h.base h5 hme] at h6
    simp [isInsert] at h6
  have hev : ∀ (j : Nat) (c : Call), isInsert c = true → Has o.base j c → (o.events.erase w.id).get? j = o.events.get? j := by
    intro j c hc hj
    have : j ≠ w.id := by
      rintro rfl
      rw [has_uniq h.base hj hme] at hc
      simp [isInsert] at hc
    rw [AMap.get?_erase]
    simp [this, Ne.symm this]
  -- a caller that does not wait any more
  have fin : ∀ m, sampleEvents o.base.table o.smp (some k) now (.sampleResume n e.draws) =
        (Info.instants (Stats.finish o.smp k true now) now m, none) →
      granted o.base b - 1 = m → o.base.table.limiter.awaitSample ≠ .wait →
      Good size o' (askInsert o.base b now ins (.wake w.id e)) (askSample o.base b now smp (.wake w.id e)) := by
    intro m e1 e2 ha
    have hh : ∀ j c, Has b j c ↔ Has o.base j c ∧ j ≠ q.id := by
      intro j c; rw [hhas]; simp [ha, h3]
    have hwt : ¬ waits b w.id = true := by
      rw [waits_iff]; rintro ⟨c, hc⟩
      exact ((hh _ _).mp hc).2 h3.symm
    simp only [askInsert, askSample, if_neg hwt, e2, hnoi] at hti ⊢
    rw [← h3, over_eq now h2 h4 (fun j r hj hr => h.smpLink.uniq h2 h4 hj hr)] at hti ⊢
    subst ho
    rw [← h1] at e1
    simp only [section_, e1, insertEvents]
    have hwd := (h.smpLink.bwd k q h2 h4).1
    refine ⟨hb, h.insKept, Kept.instants q.id now hpos m (h.smpKept.finish h2 h4 hwd now h.smpTime) hti.room, h.insTime, hti, ?_, ?_⟩
    · refine h.insLink.congr (fun j c hc => ?_) (fun j c hc hj => hev j c hc hj)
      rw [hh]
      constructor
      · exact fun x => x.1
      · intro h5
        refine ⟨h5, ?_⟩
        rintro rfl
        rw [h3] at h5
        rw [has_uniq h.base h5 hme] at hc
        simp [isInsert] at hc
    · have := h.smpLink.finish h2 h4 now hh
      rw [h3] at this ⊢
      exact this.closed w.id now m
  cases ha : o.base.table.limiter.awaitSample with
  | wait =>
    have hh : ∀ j c, Has b j c ↔ Has o.base j c := by
      intro j c; rw [hhas]
      constructor
      · rintro (⟨h5, _⟩ | ⟨_, rfl, rfl⟩)
        · exact h5
        · exact hme
      · intro h5
        by_cases e : j = w.id
        · subst e; exact .inr ⟨ha, rfl, has_uniq h.base h5 hme⟩
        · exact .inl ⟨h5, e⟩
    have hwt : waits b w.id = true := (waits_iff b w.id).mpr ⟨_, (hh _ _).mpr hme⟩
    simp only [askInsert, askSample, hwt, if_true] at hti ⊢
    subst ho
    have hev2 : ∀ (j : Nat), (o.events.insert w.id k).get? j = o.events.get? j := by
      intro j
      rw [AMap.get?_insert]
      split
      · rename_i e; rw [e, h1]
      · rfl
    simp only [section_, insertEvents, sampleEvents, await, h1, ha]
    exact ⟨hb, h.insKept, h.smpKept, h.insTime, hti, h.insLink.congr (fun j c _ => hh j c) (fun j c _ hj => hev2 j),
      h.smpLink.congr (fun j c _ => hh j c) (fun j c _ hj => hev2 j)⟩
  | cancelled =>
    refine fin 0 (by simp [sampleEvents, ha, await, Info.instants]) ?_ (by simp [ha])
    simp [granted, htab, Table.step, Table.sampleResume, ha]
  | proceed =>
    refine fin (loopCommits { o.base.table with limiter := { o.base.table.limiter with samples := o.base.table.limiter.samples + 1 } } true n e.draws)
      (by simp [sampleEvents, ha, await]) ?_ (by simp [ha])
    have h5 := Table.sampleLoop_samples { o.base.table with limiter := { o.base.table.limiter with samples := o.base.table.limiter.samples + 1 } } true n e.draws
    simp only [granted, htab, Table.step, Table.sampleResume, ha, h5]
    omega

end call

/-- A caller times out. -/
theorem Good.timeout {size : Nat} {o : Obs} {ins smp : List Asked} (h : Good size o ins smp) {w : Waiter} (hw : w ∈ o.base.waiters) {b : S}
    {now : Int} (hh : ∀ j c, Has b j c ↔ Has o.base j c ∧ j ≠ w.id) (hb : Waiters.Base b)
    (hti : InTime size (over w.id now ins)) (htq : InTime size (over w.id now smp)) :
    ∃ k, o.events.get? w.id = some k ∧
      (w.inserts = true → Good size ⟨b, Stats.finish o.ins k true now, o.smp, o.events.erase w.id⟩ (over w.id now ins) (over w.id now smp)) ∧
      (w.inserts = false → Good size ⟨b, o.ins, Stats.finish o.smp k true now, o.events.erase w.id⟩ (over w.id now ins) (over w.id now smp)) := by
  have hme : Has o.base w.id w.call := ⟨w, hw, rfl, rfl⟩
  have hev : ∀ (j : Nat), j ≠ w.id → (o.events.erase w.id).get? j = o.events.get? j := by
    intro j this
    rw [AMap.get?_erase]
    simp [this, Ne.symm this]
  have none_of : ∀ {p : Call → Bool} {l : List Asked}, Linked p (Has o.base) o.events l → p w.call = false →
      over w.id now l = l ∧ Linked p (Has b) (o.events.erase w.id) l := by
    intro p l hl hp
    have hne : ∀ j c, p c = true → Has o.base j c → j ≠ w.id := by
      rintro j c hc hj rfl
      rw [has_uniq h.base hj hme, hp] at hc
      simp at hc
    refine ⟨over_none now fun j r hj hs e => ?_, hl.congr (fun j c hc => ?_) fun j c hc hj => hev j (hne j c hc hj)⟩
    · obtain ⟨_, c, h5, h6, _⟩ := hl.bwd j r hj hs
      exact hne _ c h6 h5 e
    · rw [hh]
      exact ⟨fun x => x.1, fun x => ⟨x, hne j c hc x⟩⟩
  have hkind := h.base.kind w hw
  cases hc : w.call with
  | insert i =>
    rw [hc] at hme
    obtain ⟨k, q, h1, h2, h3, h4⟩ := h.insLink.fwd _ _ hme rfl
    obtain ⟨n1, n2⟩ := none_of h.smpLink (by rw [hc]; rfl)
    refine ⟨k, h1, fun _ => ?_, fun hf => by simp [Waiter.inserts, hc] at hf⟩
    rw [n1]
    have e1 := over_eq' now h2 h4 h3 (fun j r hj hr => h.insLink.uniq h2 h4 hj hr)
    rw [e1] at hti ⊢
    refine ⟨hb, h.insKept.finish h2 h4 (h.insLink.bwd k q h2 h4).1 now h.insTime, h.smpKept, hti, h.smpTime, ?_, n2⟩
    have := h.insLink.finish h2 h4 now (has' := Has b) (by rw [h3]; exact hh)
    have e2 : o.events.erase w.id = o.events.erase q.id := by rw [h3]
    rw [e2]
    exact this
  | sample n =>
    rw [hc] at hme
    obtain ⟨k, q, h1, h2, h3, h4⟩ := h.smpLink.fwd _ _ hme rfl
    obtain ⟨n1, n2⟩ := none_of h.insLink (by rw [hc]; rfl)
    refine ⟨k, h1, fun hf => by simp [Waiter.inserts, hc] at hf, fun _ => ?_⟩
    rw [n1]
    have e1 := over_eq' now h2 h4 h3 (fun j r hj hr => h.smpLink.uniq h2 h4 hj hr)
    rw [e1] at htq ⊢
    refine ⟨hb, h.insKept, h.smpKept.finish h2 h4 (h.smpLink.bwd k q h2 h4).1 now h.smpTime, h.insTime, htq, n2, ?_⟩
    have := h.smpLink.finish h2 h4 now (has' := Has b) (by rw [h3]; exact hh)
    have e2 : o.events.erase w.id = o.events.erase q.id := by rw [h3]
    rw [e2]
    exact this
  | mutate a b => simp [hc, Call.waits] at hkind
  | reset => simp [hc, Call.waits] at hkind
  | close => simp [hc, Call.waits] at hkind

theorem has_timeout (s : S) (w : Waiter) (x : List (Nat × Waiters.Ending)) (j : Nat) (c : Call) :
    Has { s with
      waiters := s.waiters.filter (fun v => v.id ≠ w.id)
      ended := x } j c ↔ Has s j c ∧ j ≠ w.id := has_filter s w.id j c

theorem waiting_call {c : Call} (h : c.waits = true) : (∃ i, c = .insert i) ∨ (∃ n, c = .sample n) := by
  cases c with
  | insert i => exact .inl ⟨i, rfl⟩
  | sample n => exact .inr ⟨n, rfl⟩
  | _ => simp [Call.waits] at h

theorem step_base {o o' : Obs} {a : Act} {now : Int} (h : step o a now = some o') : Waiters.step o.base a = some o'.base := by
  unfold step at h
  cases hs : Waiters.step o.base a with
  | none => simp [hs] at h
  | some b =>
    simp only [hs] at h
    cases a with
    | call id c e => simp only [Option.some.injEq] at h; subst h; rfl
    | wake id e =>
      simp only at h
      split at h
      · cases h
      · cases h; rfl
    | timeout id =>
      simp only at h
      split at h
      · split at h <;> (cases h; rfl)
      · cases h

theorem Good.step {size : Nat} (hpos : 0 < size) {o o' : Obs} {ins smp : List Asked} (h : Good size o ins smp) {a : Act} {now : Int}
    (hs : Info.step o a now = some o') (hti : InTime size (askInsert o.base o'.base now ins a))
    (htq : InTime size (askSample o.base o'.base now smp a)) :
    Good size o' (askInsert o.base o'.base now ins a) (askSample o.base o'.base now smp a) := by
  have hbs := step_base hs
  have hb' := h.base.step hbs
  have htr := (Waiters.tr_of_step hbs).2
  generalize o'.base = b at *
  simp only [Info.step, hbs] at hs
  cases a with
  | call id c e =>
    simp only [Option.some.injEq] at hs
    cases htr with
    | call _ _ _ hk =>
      cases c with
      | insert i => exact h.callInsert hpos hk rfl hb' hs.symm hti
      | sample n => exact h.callSample hpos hk rfl hb' hs.symm htq
      | mutate us ds => exact h.callOther hk rfl rfl hb' hs.symm
      | reset => exact h.callOther hk rfl rfl hb' hs.symm
      | close => exact h.callOther hk rfl rfl hb' hs.symm
  | wake id e =>
    cases htr with
    | wake w _ hw =>
      simp only at hs
      rw [has_find h.base hw] at hs
      simp only [Option.some.injEq] at hs
      rcases waiting_call (h.base.kind w hw) with ⟨i, hc⟩ | ⟨n, hc⟩
      · exact h.wakeInsert hw hc rfl hb' hs.symm hti
      · exact h.wakeSample hpos hw hc rfl hb' hs.symm htq
  | timeout id =>
    cases htr with
    | timeout w hw =>
      obtain ⟨k, h1, h2, h3⟩ := h.timeout hw (now := now) (has_timeout o.base w _) hb' hti htq
      simp only at hs
      rw [has_find h.base hw, h1] at hs
      simp only at hs
      split at hs
      · cases hs; exact h2 (by assumption)
      · cases hs; exact h3 (by simpa using ‹¬ w.inserts = true›)

/-- Everything that can happen to the table can be watched. -/
theorem Good.total {size : Nat} {o : Obs} {ins smp : List Asked} (h : Good size o ins smp) {a : Act} {b : S} (now : Int)
    (hs : Waiters.step o.base a = some b) : ∃ o', Info.step o a now = some o' ∧ o'.base = b := by
  have htr := (Waiters.tr_of_step hs).2
  simp only [Info.step, hs]
  cases a with
  | call id c e => exact ⟨_, rfl, rfl⟩
  | wake id e =>
    cases htr with
    | wake w _ hw => simp only; rw [has_find h.base hw]; exact ⟨_, rfl, rfl⟩
  | timeout id =>
    cases htr with
    | timeout w hw =>
      have hkind := h.base.kind w hw
      have : ∃ k, o.events.get? w.id = some k := by
        cases hc : w.call with
        | insert i =>
          obtain ⟨k, _, h1, _⟩ := h.insLink.fwd w.id (.insert i) ⟨w, hw, rfl, hc⟩ rfl
          exact ⟨k, h1⟩
        | sample n =>
          obtain ⟨k, _, h1, _⟩ := h.smpLink.fwd w.id (.sample n) ⟨w, hw, rfl, hc⟩ rfl
          exact ⟨k, h1⟩
        | mutate a b => simp [hc, Call.waits] at hkind
        | reset => simp [hc, Call.waits] at hkind
        | close => simp [hc, Call.waits] at hkind
      obtain ⟨k, hk⟩ := this
      simp only
      rw [has_find h.base hw, hk]
      simp only
      split <;> exact ⟨_, rfl, rfl⟩

theorem Seen.good {size : Nat} (hpos : 0 < size) {c : Config} {o : Obs} {ins smp : List Asked} (h : Seen size c.init o ins smp) :
    Good size o ins smp := by
  induction h with
  | init => exact .init size c
  | step _ hs hi hq ih => exact ih.step hpos hs hi hq

/-! ### The numbers -/

theorem toRec_getD (q : Asked) : q.toRec.blocked.getD 0 = q.waitedFor := by
  unfold Asked.toRec Asked.waitedFor
  cases q.stop <;> simp

theorem Kept.reported {size : Nat} {l : List Asked} {m : Stats.S} (h : Kept size l m) (ht : InTime size l) (now : Int) :
    callStats m now = reported l now := by
  have hp := Stats.Inv.active_perm h
  simp only [callStats, Stats.toProto, Info.reported]
  rw [hp.length_eq, Stats.running_length, Stats.sum_perm (hp.map _), Stats.running_waits (l.map Asked.toRec) now _ fun i c h1 h2 => ?_]
  · rw [Stats.Inv.completed h, Stats.Inv.limited h, Stats.Inv.total h]
    simp only [List.countP_map, List.map_map, List.filter_map, Function.comp_def, toRec_getD]
    congr 1
    · congr 1; funext q; simp [Asked.toRec]
    · congr 1; funext q; simp [Asked.toRec]
    · simp [Asked.toRec]
  · rw [Stats.Inv.size_eq h, Stats.Inv.slots h i c h1 ?_]
    rw [List.getElem?_map] at h1
    obtain ⟨q, hq, rfl⟩ := Option.map_eq_some_iff.mp h1
    simpa using ht i q hq ((toRec_open q).mp h2)

end Info
end Verif
