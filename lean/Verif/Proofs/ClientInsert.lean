import Verif.Proofs.ClientOps
import Verif.Proofs.WriterFull
import Verif.Proofs.WriterKept
import Verif.Proofs.WriterRun
/-
What the writer of `InsertOp` and of `Client.insert` has sent.
-/
namespace Verif
namespace Writer

/-- The calls with their answers. -/
def withAnswers : List Call → List (List Answer) → List Event
  | [], _ => []
  | c :: cs, as => (c, as.headD []) :: withAnswers cs as.tail

theorem callEach_ok : ∀ {cs : List Call} {w w' : Writer} {as as' : List (List Answer)}, callEach cs w as = (w', .ret none, as') →
    w.run (withAnswers cs as) = some w' ∧ as' = as.drop cs.length
  | [], w, w', as, as', h => by
    cases h
    exact ⟨rfl, rfl⟩
  | c :: cs, w, w', as, as', h => by
    unfold callEach at h
    split at h
    · rename_i w1 as1 he
      obtain ⟨h1, h2⟩ := callEach_ok h
      refine ⟨?_, by rw [h2]; cases as <;> simp⟩
      show Writer.run w ((c, as.headD []) :: withAnswers cs as.tail) = some w'
      unfold Writer.run
      rw [he]
      exact h1
    · rename_i w1 r x he hne
      cases h
      exact (he rfl).elim

theorem callEach_append : ∀ {cs ds : List Call} {w w' : Writer} {as as' : List (List Answer)}, callEach (cs ++ ds) w as = (w', .ret none, as') →
    ∃ w1, callEach cs w as = (w1, .ret none, as.drop cs.length) ∧ callEach ds w1 (as.drop cs.length) = (w', .ret none, as')
  | [], ds, w, w', as, as', h => ⟨w, rfl, h⟩
  | c :: cs, ds, w, w', as, as', h => by
    simp only [List.cons_append, callEach] at h ⊢
    split at h
    · obtain ⟨w1, h1, h2⟩ := callEach_append h
      have : as.tail.drop cs.length = as.drop (cs.length + 1) := by cases as <;> simp
      rw [this] at h1 h2
      exact ⟨w1, h1, h2⟩
    · rename_i w1 r x he hne
      cases h
      exact (he rfl).elim

theorem callEach_join : ∀ {cs ds : List Call} {w w1 w' : Writer} {as as1 as' : List (List Answer)}, callEach cs w as = (w1, .ret none, as1) →
    callEach ds w1 as1 = (w', .ret none, as') → callEach (cs ++ ds) w as = (w', .ret none, as')
  | [], ds, w, w1, w', as, as1, as', h, h' => by
    cases h
    exact h'
  | c :: cs, ds, w, w1, w', as, as1, as', h, h' => by
    simp only [List.cons_append, callEach] at h ⊢
    split at h
    · exact callEach_join h h'
    · rename_i w1 r x hne he
      cases h
      exact (hne rfl).elim

/-- The item that is made for the entry `i`. -/
def itemOf (gen : Nat → Key) (drawn : Nat) (traj : FlatTraj) (i : Nat) (e : String × Pri) : WItem := ⟨gen (drawn + i), e.1, e.2, traj, []⟩

theorem trajectory_core {w w' : Writer} (h : w'.core = w.core) (n : Int) : w'.trajectory n = w.trajectory n := by
  have h1 : w'.core.trajectory n = w.core.trajectory n := by rw [h]
  exact h1

/-- `CreateItem` with nothing in the buffer. -/
theorem createItem_at_once {w w' : Writer} {table : String} {n : Int} {p : Pri} {as as' : List Answer} (hb : w.buffer = []) (hp : w.pending = [])
    (hf : .finish none ∉ as) (h : w.createItem table n p as = (w', .ret none, as')) :
    w'.pending = [] ∧ ∃ traj, w.trajectory n = some traj ∧ w'.sent = w.sent ++ [⟨w.gen w.drawn, table, p, traj, []⟩] ∧
      w'.core = { w.core with drawn := w.drawn + 1 } := by
  unfold createItem at h
  split at h
  · cases h
  split at h
  · cases h
  split at h
  · cases h
  split at h
  · cases h
  · cases h
  · split at h
    · cases h
    · rename_i traj ht
      have hk := writeRounds_kept true (as.length + 1) (w.pushItem table p traj) as
      have hc := writeWithRetries_core (w.pushItem table p traj) true as
      rw [show writeRounds true (as.length + 1) (w.pushItem table p traj) as = (w.pushItem table p traj).writeWithRetries true as from rfl] at hk
      obtain ⟨⟨w1, r1, as1⟩, he⟩ : ∃ x, (w.pushItem table p traj).writeWithRetries true as = x := ⟨_, rfl⟩
      rw [he] at h hk hc
      cases r1 with
      | blocked => cases h
      | died => cases h
      | ret r =>
        cases r with
        | some e => cases h
        | none =>
          cases h
          obtain ⟨⟨pre, k1, k2⟩, _, k3, _⟩ := hk
          have k3 := (k3 rfl).resolve_right hf
          refine ⟨k3, traj, ht, ?_, hc⟩
          rw [k3, List.append_nil] at k1
          rw [k2, ← k1]
          simp [pushItem, hp]

/-- The items, one after the other. -/
theorem items_sent : ∀ {entries : List (String × Pri)} {w w' : Writer} {as as' : List (List Answer)}, w.buffer = [] → w.pending = [] →
    (∀ i < entries.length, .finish none ∉ as.getD i []) → ∀ {traj : FlatTraj}, w.trajectory 1 = some traj →
    callEach (entries.map fun e => .createItem e.1 1 e.2) w as = (w', .ret none, as') →
    w'.sent = w.sent ++ entries.mapIdx (itemOf w.gen w.drawn traj) ∧ w'.pending = [] ∧ w'.drawn = w.drawn + entries.length ∧ w'.gen = w.gen
  | [], w, w', as, as', hb, hp, hf, traj, ht, h => by
    cases h
    simp [hp]
  | e :: entries, w, w', as, as', hb, hp, hf, traj, ht, h => by
    simp only [List.map_cons, callEach] at h
    split at h
    · rename_i w1 as1 he
      have hf0 : .finish none ∉ as.headD [] := by
        have := hf 0 (by simp)
        cases as <;> simpa using this
      obtain ⟨q1, traj', q2, q3, q4⟩ := createItem_at_once hb hp hf0 he
      have q2' : some traj' = some traj := q2.symm.trans ht
      cases q2'
      have hb1 : w1.buffer = [] := by
        have : w1.core.buffer = ({ w.core with drawn := w.drawn + 1 } : Writer).buffer := by rw [q4]
        exact this.trans hb
      have hd1 : w1.drawn = w.drawn + 1 := by
        have : w1.core.drawn = ({ w.core with drawn := w.drawn + 1 } : Writer).drawn := by rw [q4]
        exact this
      have hg1 : w1.gen = w.gen := by
        have : w1.core.gen = ({ w.core with drawn := w.drawn + 1 } : Writer).gen := by rw [q4]
        exact this
      have ht1 : w1.trajectory 1 = some traj := by
        have : w1.core.trajectory 1 = ({ w.core with drawn := w.drawn + 1 } : Writer).trajectory 1 := by rw [q4]
        exact this.trans ht
      have hf1 : ∀ i < entries.length, .finish none ∉ as.tail.getD i [] := by
        intro i hi
        have := hf (i + 1) (by simp only [List.length_cons]; omega)
        cases as <;> simpa using this
      obtain ⟨r1, r2, r3, r4⟩ := items_sent hb1 q1 hf1 ht1 h
      refine ⟨?_, r2, by rw [r3, hd1]; simp only [List.length_cons]; omega, by rw [r4, hg1]⟩
      rw [r1, q3, hd1, hg1, List.append_assoc]
      congr 1
      rw [List.mapIdx_cons]
      simp only [List.singleton_append, List.cons.injEq]
      refine ⟨rfl, ?_⟩
      congr 1
      funext i e
      simp only [itemOf]
      congr 2
      omega
    · rename_i w1 r x he hne
      cases h
      exact (he rfl).elim

theorem withAnswers_append : ∀ (cs ds : List Call) (as : List (List Answer)), withAnswers (cs ++ ds) as = withAnswers cs as ++ withAnswers ds (as.drop cs.length)
  | [], ds, as => rfl
  | c :: cs, ds, as => by
    simp only [List.cons_append, withAnswers, withAnswers_append cs ds as.tail]
    have : as.tail.drop cs.length = as.drop (cs.length + 1) := by cases as <;> simp
    rw [this]
    rfl

theorem mem_withAnswers : ∀ {cs : List Call} {as : List (List Answer)} {e : Event}, e ∈ withAnswers cs as →
    ∃ i, i < cs.length ∧ cs[i]? = some e.1 ∧ e.2 = as.getD i []
  | [], as, e, h => by cases h
  | c :: cs, as, e, h => by
    rcases List.mem_cons.mp h with rfl | h
    · exact ⟨0, by simp, rfl, by cases as <;> rfl⟩
    · obtain ⟨i, h1, h2, h3⟩ := mem_withAnswers h
      refine ⟨i + 1, by simp only [List.length_cons]; omega, h2, ?_⟩
      rw [h3]
      cases as <;> simp

/-- Closing sends nothing if nothing is pending. -/
theorem close_none_sent {w w' : Writer} {retry : Bool} {as as' : List Answer} (hp : w.pending = []) (h : w.close retry as = (w', .ret none, as')) :
    w'.sent = w.sent ∧ w'.pending = [] := by
  unfold close at h
  split at h
  · cases h
  unfold closeStream at h
  split at h
  · cases h
    exact ⟨rfl, hp⟩
  · have h1 := confirmItems_quiet 0 as { w with half := true }
    obtain ⟨⟨w1, r1, as1⟩, he⟩ : ∃ x, confirmItems 0 as { w with half := true } = x := ⟨_, rfl⟩
    rw [he] at h h1
    cases r1 with
    | blocked => cases h
    | died => cases h
    | ret b =>
      dsimp only at h
      have h2 := stopWorker_quiet w1 as1
      obtain ⟨⟨w2, r2, as2⟩, he2⟩ : ∃ x, w1.stopWorker as1 = x := ⟨_, rfl⟩
      rw [he2] at h h2
      have hq : Quiet { w with half := true } w2 := Quiet.trans h1 h2
      obtain ⟨i, r, a, hq⟩ := hq
      have hw2 : w2.sent = w.sent ∧ w2.pending = [] := by rw [hq]; exact ⟨rfl, hp⟩
      split at h
      · rename_i heq
        cases heq
        cases h
        exact hw2
      · cases h
      · cases h

/-- What the writer has sent when all calls have returned OK. -/
theorem insert_sent {w w' : Writer} (hn : w.New) (h1 : w.chunkLength = 1) {data : Timestep} {entries : List (String × Pri)}
    {as as' : List (List Answer)} (hf : ∀ i ≤ entries.length, .finish none ∉ as.getD i [])
    (h : callEach (insertCalls data entries) w as = (w', .ret none, as')) :
    (∃ traj, w'.sent = entries.mapIdx (itemOf w.gen 3 traj)) ∧ w'.pending = [] ∧ w'.drawn = 3 + entries.length ∧ w'.gen = w.gen := by
  unfold insertCalls callEach at h
  split at h
  · rename_i w1 as1 he
    have he : w.append data (as.headD []) = (w1, .ret none, as1) := he
    have hf0 : .finish none ∉ as.headD [] := by
      have := hf 0 (by simp)
      cases as <;> simpa using this
    have hnew := hn.new
    have hb0 : w.buffer = [] := by rw [hnew]; rfl
    have hp0 : w.pending = [] := by rw [hnew]; rfl
    have hs0 : w.sent = [] := by rw [hnew]; rfl
    have hd0 : w.drawn = 2 := by rw [hnew]; rfl
    obtain ⟨⟨pre, k1, k2⟩, k3, _⟩ := append_kept w data (as.headD [])
    rw [he] at k1 k2 k3
    have k3 := k3 rfl
    rw [if_neg (by rw [hb0, h1]; simp)] at k3
    have hp1 : w1.pending = [] := k3.resolve_right hf0
    have hs1 : w1.sent = [] := by
      rw [hp0] at k1
      have : pre = [] := by
        cases pre with
        | nil => rfl
        | cons a l => cases k1
      rw [k2, hs0, this]
      rfl
    obtain ⟨_, c2⟩ := append_core (RingInv.new hn).ring data (as.headD [])
    rw [he] at c2
    obtain ⟨_, _, c3⟩ := c2 rfl
    rw [if_neg (by rw [hb0, h1]; simp)] at c3
    obtain ⟨ch, c4, c5⟩ := c3
    have c5 : w1.core = ({ (w.push data) with chunks := w.chunks ++ [ch] } : Writer).finished.core := c5
    have hb1 : w1.buffer = [] := by
      have : w1.core.buffer = ({ (w.push data) with chunks := w.chunks ++ [ch] } : Writer).finished.core.buffer := by rw [c5]
      exact this
    have hd1 : w1.drawn = 3 := by
      have : w1.core.drawn = ({ (w.push data) with chunks := w.chunks ++ [ch] } : Writer).finished.core.drawn := by rw [c5]
      have h2 : w1.drawn = w.drawn + 1 := this
      omega
    have hg1 : w1.gen = w.gen := by
      have : w1.core.gen = ({ (w.push data) with chunks := w.chunks ++ [ch] } : Writer).finished.core.gen := by rw [c5]
      exact this
    have hft : ∀ i < entries.length, .finish none ∉ as.tail.getD i [] := by
      intro i hi
      have := hf (i + 1) (by omega)
      cases as <;> simpa using this
    cases ht : w1.trajectory 1 with
    | some traj =>
      obtain ⟨r1, r2, r3, r4⟩ := items_sent hb1 hp1 hft ht h
      rw [hs1, List.nil_append, hd1, hg1] at r1
      exact ⟨⟨traj, r1⟩, r2, by rw [r3, hd1], by rw [r4, hg1]⟩
    | none =>
      cases entries with
      | nil =>
        cases h
        exact ⟨⟨[], by rw [hs1]; rfl⟩, hp1, hd1, hg1⟩
      | cons e entries =>
        exfalso
        simp only [List.map_cons, callEach] at h
        split at h
        · rename_i w2 as2 he2
          have hft0 : .finish none ∉ as.tail.headD [] := by
            have := hft 0 (by simp)
            cases hh : as.tail with
            | nil => simp
            | cons a l => rw [hh] at this; simpa using this
          obtain ⟨_, traj, q, _⟩ := createItem_at_once hb1 hp1 hft0 he2
          rw [ht] at q
          cases q
        · rename_i w2 r x hne he2
          cases h
          exact hne rfl
  · rename_i w2 r x hne he2
    cases h
    exact (hne rfl).elim

theorem history_items (entries : List (String × Pri)) : ∀ (w : Writer) (as : List (List Answer)),
    w.history (withAnswers (entries.map fun e => .createItem e.1 1 e.2) as) = [] := by
  induction entries with
  | nil => intro w as; rfl
  | cons e entries ih =>
    intro w as
    simp only [List.map_cons, withAnswers, history, appended, List.nil_append]
    exact ih _ _

end Writer
end Verif
