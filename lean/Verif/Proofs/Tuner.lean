import Verif.Proofs.ChunkerHist
import Verif.Spec.Tuner
namespace Verif
namespace Tuner

theorem newest_length {α : Type} (n : Nat) (l : List α) : (newest n l).length = min n l.length := by
  simp only [newest, List.length_drop]; omega

theorem newest_snoc {α : Type} (n : Nat) (l : List α) (x : α) :
    newest (n + 1) (l ++ [x]) = if n + 1 < (newest (n + 1) l ++ [x]).length then (newest (n + 1) l ++ [x]).tail else newest (n + 1) l ++ [x] := by
  have hl := newest_length (n + 1) l
  simp only [List.length_append, List.length_singleton, hl]
  split
  · rename_i h
    have h1 : n + 1 ≤ l.length := by omega
    simp only [newest, List.length_append, List.length_singleton]
    rw [List.drop_append_of_le_length (by omega), ← List.drop_one, List.drop_append_of_le_length (by simp; omega), List.drop_drop]
    congr 2; omega
  · rename_i h
    have h1 : l.length ≤ n := by omega
    simp only [newest, List.length_append, List.length_singleton]
    rw [show l.length + 1 - (n + 1) = 0 by omega, show l.length - (n + 1) = 0 by omega]
    simp

theorem newest_map {α β : Type} (n : Nat) (f : α → β) (l : List α) : newest n (l.map f) = (newest n l).map f := by
  simp [newest, List.map_drop]

theorem mem_newest {α : Type} {n : Nat} {l : List α} {x : α} (h : x ∈ newest n l) : x ∈ l := List.mem_of_mem_drop h

theorem sum_div (l : List Rat) (q : Rat) : (l.map fun x => x / q).sum = l.sum / q := by
  induction l with
  | nil => simp [Rat.div_def, Rat.zero_mul]
  | cons x l ih => rw [List.map_cons, List.sum_cons, List.sum_cons, ih, Rat.div_def, Rat.div_def, Rat.div_def, Rat.add_mul]

theorem sum_cast {α : Type} (f : α → Nat) (l : List α) : (((l.map f).sum : Nat) : Rat) = (l.map fun a => ((f a : Nat) : Rat)).sum := by
  induction l with
  | nil => rfl
  | cons a l ih => simp only [List.map_cons, List.sum_cons, Rat.natCast_add, ih]

theorem sum_nonneg {l : List Rat} (h : ∀ x ∈ l, 0 ≤ x) : 0 ≤ l.sum := by
  induction l with
  | nil => simp
  | cons a l ih =>
    have h1 := h a (by simp)
    have h2 := ih (fun x hx => h x (by simp [hx]))
    simp only [List.sum_cons]
    grind

theorem mean_nonneg {l : List Rat} (h : ∀ x ∈ l, 0 ≤ x) : 0 ≤ mean l := by
  unfold mean
  rw [Rat.div_def]
  refine Rat.mul_nonneg (sum_nonneg h) ?_
  by_cases h0 : l.length = 0
  · rw [h0]; simp
  · have : (0 : Rat) < ((l.length : Nat) : Rat) := by exact_mod_cast Nat.pos_of_ne_zero h0
    exact Rat.le_of_lt (Rat.inv_pos.mpr this)

theorem length_nonneg (round : List (List ChunkObs)) : 0 ≤ length round := by
  apply mean_nonneg
  intro x hx
  simp only [List.mem_append, List.mem_map] at hx
  rcases hx with ⟨r, _, rfl⟩ | ⟨c, _, rfl⟩
  · apply mean_nonneg
    intro x hx
    simp only [List.mem_map] at hx
    obtain ⟨c, _, rfl⟩ := hx
    exact Rat.natCast_nonneg
  · exact Rat.natCast_nonneg

/-- The first references are the distinct chunks. -/
theorem firstRefs_eq {refs : List ChunkObs} (h : OneEach [refs]) : AutoTuned.firstRefs refs = refs.eraseDups := by
  have key : ∀ (l acc : List ChunkObs), (∀ c ∈ l, c ∈ refs) → (∀ c ∈ acc, c ∈ refs) →
      l.foldl (fun acc r => if acc.any (fun a => a.key == r.key) then acc else acc ++ [r]) acc =
        acc ++ (l.filter fun c => decide (c ∉ acc)).eraseDups := by
    intro l
    induction l with
    | nil => intro acc _ _; simp
    | cons c l ih =>
      intro acc hl ha
      have hc : (acc.any fun a => a.key == c.key) = decide (c ∈ acc) := by
        by_cases hm : c ∈ acc
        · simp only [hm, decide_true, List.any_eq_true]
          exact ⟨c, hm, by simp⟩
        · simp only [hm, decide_false]
          rw [List.any_eq_false]
          intro a hx he
          have := h refs (by simp) refs (by simp) a (ha a hx) c (hl c (by simp)) (by simpa using he)
          exact hm (this ▸ hx)
      simp only [List.foldl_cons, hc]
      by_cases hm : c ∈ acc
      · rw [if_pos (by simpa using hm), ih acc (fun d hd => hl d (by simp [hd])) ha, List.filter_cons_of_neg (by simpa using hm)]
      · rw [if_neg (by simpa using hm), ih (acc ++ [c]) (fun d hd => hl d (by simp [hd])) (by
          intro d hd
          simp only [List.mem_append, List.mem_singleton] at hd
          rcases hd with hd | rfl
          · exact ha d hd
          · exact hl _ (by simp))]
        rw [List.filter_cons_of_pos (by simpa using hm), List.eraseDups_cons, List.append_assoc, List.singleton_append]
        congr 3
        rw [List.filter_filter]
        apply List.filter_congr
        intro d _
        by_cases h1 : d ∈ acc <;> by_cases h2 : d = c <;> simp [h1, h2]
  have := key refs [] (fun _ h => h) (by simp)
  rw [List.filter_eq_self.mpr (by simp)] at this
  exact this

/-- What the buffer of chunks holds for a chunk. -/
def chunkStat (c : ChunkObs) : Statistic := ⟨c.key, ((c.bytes : Nat) : Rat) / ((c.length : Nat) : Rat), ((c.length : Nat) : Rat)⟩

/-- What the buffer of items holds for an item. -/
def itemStat (refs : List ChunkObs) : Statistic := ⟨0, itemBytes refs, itemLength refs⟩

theorem pushChunks_eq {buffer refs : List ChunkObs} (h : OneEach [buffer, refs]) :
    refs.foldl AutoTuned.pushChunk (buffer.map chunkStat) =
      (buffer ++ refs.eraseDups.filter fun c => decide (c ∉ buffer)).map chunkStat := by
  have key : ∀ (l acc : List ChunkObs), (∀ c ∈ l, c ∈ refs) → (∀ c ∈ acc, c ∈ buffer ∨ c ∈ refs) →
      l.foldl AutoTuned.pushChunk (acc.map chunkStat) = (acc ++ (l.filter fun c => decide (c ∉ acc)).eraseDups).map chunkStat := by
    intro l
    induction l with
    | nil => intro acc _ _; simp
    | cons c l ih =>
      intro acc hl ha
      have hc : ((acc.map chunkStat).all fun s => s.key != c.key) = decide (c ∉ acc) := by
        by_cases hm : c ∈ acc
        · simp only [hm, not_true_eq_false, decide_false]
          rw [List.all_eq_false]
          exact ⟨chunkStat c, List.mem_map_of_mem hm, by simp [chunkStat]⟩
        · simp only [hm, not_false_eq_true, decide_true]
          rw [List.all_eq_true]
          intro s hs
          obtain ⟨a, hx, rfl⟩ := List.mem_map.mp hs
          simp only [chunkStat, bne_iff_ne, ne_eq]
          intro he
          have hcr := hl c (by simp)
          have : a = c := by
            rcases ha a hx with hb | hb
            · exact h buffer (by simp) refs (by simp) a hb c hcr he
            · exact h refs (by simp) refs (by simp) a hb c hcr he
          exact hm (this ▸ hx)
      simp only [List.foldl_cons]
      unfold AutoTuned.pushChunk
      rw [hc]
      by_cases hm : c ∈ acc
      · rw [if_neg (by simpa using hm)]
        exact (ih acc (fun d hd => hl d (by simp [hd])) ha).trans (by rw [List.filter_cons_of_neg (by simpa using hm)])
      · rw [if_pos (by simpa using hm)]
        have := ih (acc ++ [c]) (fun d hd => hl d (by simp [hd])) (by
          intro d hd
          simp only [List.mem_append, List.mem_singleton] at hd
          rcases hd with hd | rfl
          · exact ha d hd
          · exact .inr (hl _ (by simp)))
        rw [List.map_append] at this
        refine Eq.trans this ?_
        rw [List.filter_cons_of_pos (by simpa using hm), List.eraseDups_cons, List.append_assoc, List.singleton_append]
        congr 4
        rw [List.filter_filter]
        apply List.filter_congr
        intro d _
        by_cases h1 : d ∈ acc <;> by_cases h2 : d = c <;> simp [h1, h2]
  rw [key refs buffer (fun _ h => h) (fun _ h => .inl h)]
  congr 2
  -- erasing duplicates and filtering commute
  have comm : ∀ (n : Nat) (l : List ChunkObs) (p : ChunkObs → Bool), l.length ≤ n → (l.filter p).eraseDups = l.eraseDups.filter p := by
    intro n
    induction n with
    | zero => intro l p hl; have : l = [] := List.length_eq_zero_iff.mp (by omega); subst this; rfl
    | succ n ih =>
      intro l p hl
      cases l with
      | nil => rfl
      | cons c l =>
        have hlen : (l.filter fun b => !b == c).length ≤ n := by
          have := List.length_filter_le (fun b => !b == c) l
          simp only [List.length_cons] at hl
          omega
        rw [List.eraseDups_cons]
        by_cases hp : p c = true
        · rw [List.filter_cons_of_pos hp, List.filter_cons_of_pos hp, List.eraseDups_cons, ← ih _ p hlen]
          congr 2
          rw [List.filter_filter, List.filter_filter]
          apply List.filter_congr
          intro d _
          exact Bool.and_comm _ _
        · rw [List.filter_cons_of_neg hp, List.filter_cons_of_neg hp, ← ih _ p hlen]
          congr 1
          rw [List.filter_filter]
          apply List.filter_congr
          intro d _
          by_cases h2 : d = c
          · subst h2; simp [hp]
          · simp [h2]
  exact comm _ refs _ (Nat.le_refl _)

theorem chunkBuffer_snoc (round : List (List ChunkObs)) (refs : List ChunkObs) :
    chunkBuffer (round ++ [refs]) =
      newest 5 (chunkBuffer round ++ refs.eraseDups.filter fun c => decide (c ∉ chunkBuffer round)) := by
  simp [chunkBuffer, List.foldl_append]

theorem mem_chunkBuffer : ∀ (n : Nat) (round : List (List ChunkObs)), round.length = n → ∀ {c : ChunkObs}, c ∈ chunkBuffer round →
    ∃ r ∈ round, c ∈ r := by
  intro n
  induction n with
  | zero => intro round hn c hc; have : round = [] := List.length_eq_zero_iff.mp hn; subst this; simp [chunkBuffer] at hc
  | succ n ih =>
    intro round hn c hc
    have hne : round ≠ [] := by rintro rfl; simp at hn
    rw [← List.dropLast_concat_getLast hne] at hc ⊢
    rw [chunkBuffer_snoc] at hc
    have hc := mem_newest hc
    simp only [List.mem_append, List.mem_filter, List.mem_eraseDups] at hc
    rcases hc with hc | hc
    · obtain ⟨r, hr, hcr⟩ := ih round.dropLast (by simp [hn]) hc
      exact ⟨r, by simp [hr], hcr⟩
    · exact ⟨_, by simp, hc.1⟩

theorem roundOf_snoc (items : List (List ChunkObs)) (refs : List ChunkObs) :
    roundOf (items ++ [refs]) = if full (roundOf items ++ [refs]) then [] else roundOf items ++ [refs] := by
  rw [roundOf, List.foldl_append]
  rfl

theorem mem_roundOf : ∀ (n : Nat) (items : List (List ChunkObs)), items.length = n → ∀ {r : List ChunkObs}, r ∈ roundOf items → r ∈ items := by
  intro n
  induction n with
  | zero => intro items hn r hc; have : items = [] := List.length_eq_zero_iff.mp hn; subst this; simp [roundOf] at hc
  | succ n ih =>
    intro items hn r hc
    have hne : items ≠ [] := by rintro rfl; simp at hn
    rw [← List.dropLast_concat_getLast hne] at hc ⊢
    rw [roundOf_snoc] at hc
    split at hc
    · simp at hc
    · simp only [List.mem_append] at hc ⊢
      rcases hc with hc | hc
      · exact .inl (ih items.dropLast (by simp [hn]) hc)
      · exact .inr hc

end Tuner

namespace AutoTuned

/-- The buffers hold the current round. -/
structure Holds (a : AutoTuned) (round : List (List ChunkObs)) : Prop where
  items : a.items = (Tuner.newest 10 round).map Tuner.itemStat
  chunks : a.chunks = (Tuner.chunkBuffer round).map Tuner.chunkStat

theorem push_holds {a : AutoTuned} {round : List (List ChunkObs)} (h : a.Holds round) {refs : List ChunkObs}
    (ho : Tuner.OneEach (round ++ [refs])) : ((a.pushItem refs).pushChunks refs).Holds (round ++ [refs]) := by
  have h1 : Tuner.OneEach [refs] := by
    intro r hr r' hr'
    simp only [List.mem_singleton] at hr hr'
    subst hr; subst hr'
    exact ho _ (by simp) _ (by simp)
  have hb : ∀ c, c ∈ Tuner.chunkBuffer round → ∃ r ∈ round, c ∈ r := fun c hc => Tuner.mem_chunkBuffer _ round rfl hc
  have h2 : Tuner.OneEach [Tuner.chunkBuffer round, refs] := by
    intro r hr r' hr' c hc c' hc' hk
    have look : ∀ r ∈ [Tuner.chunkBuffer round, refs], ∀ c ∈ r, ∃ r ∈ round ++ [refs], c ∈ r := by
      intro r hr c hc
      simp only [List.mem_cons, List.not_mem_nil, or_false] at hr
      rcases hr with rfl | rfl
      · obtain ⟨r, hr, hc⟩ := hb c hc
        exact ⟨r, by simp [hr], hc⟩
      · exact ⟨_, by simp, hc⟩
    obtain ⟨s, hs, hcs⟩ := look r hr c hc
    obtain ⟨s', hs', hcs'⟩ := look r' hr' c' hc'
    exact ho s hs s' hs' c hcs c' hcs' hk
  have hst : (⟨0, (((firstRefs refs).map (·.bytes)).sum : Nat) / (refs.length : Nat),
      (((firstRefs refs).map (·.length)).sum : Nat) / ((firstRefs refs).length : Nat)⟩ : Statistic) = Tuner.itemStat refs := by
    rw [Tuner.firstRefs_eq h1, Tuner.sum_cast, Tuner.sum_cast]
    simp [Tuner.itemStat, Tuner.itemBytes, Tuner.itemLength, Tuner.mean]
  constructor
  · simp only [pushChunks, pushItem]
    rw [hst, h.items]
    have := Tuner.newest_snoc 9 (round.map Tuner.itemStat) (Tuner.itemStat refs)
    rw [show (9 + 1) = 10 from rfl] at this
    rw [← Tuner.newest_map, ← Tuner.newest_map, List.map_append, List.map_singleton, this]
    rfl
  · simp only [pushChunks, pushItem]
    rw [h.chunks, Tuner.pushChunks_eq h2, Tuner.chunkBuffer_snoc, ← Tuner.newest_map]
    rfl

theorem reduce_holds {a : AutoTuned} {round : List (List ChunkObs)} (h : a.Holds round) (hf : Tuner.full round = true) :
    a.reduce = some ({ a with
      items := []
      chunks := [] }, Tuner.scored a.weight round) := by
  simp only [Tuner.full, decide_eq_true_eq] at hf
  have hi : a.items.length = 10 := by rw [h.items, List.length_map, Tuner.newest_length]; omega
  have hcb : (Tuner.chunkBuffer round).length ≤ 5 := by
    have hne : round ≠ [] := by rintro rfl; simp at hf
    rw [← List.dropLast_concat_getLast hne, Tuner.chunkBuffer_snoc, Tuner.newest_length]
    omega
  have hc : a.chunks.length = 5 := by rw [h.chunks, List.length_map]; omega
  unfold reduce
  rw [if_pos ⟨hi, hc⟩]
  simp only [Option.some.injEq, Prod.mk.injEq, true_and]
  have e1 : (a.items.map fun s => s.bytesPerStep / ((a.items.length : Nat) : Rat)).sum =
      Tuner.mean ((Tuner.newest 10 round).map Tuner.itemBytes) := by
    have := Tuner.sum_div (a.items.map Statistic.bytesPerStep) ((a.items.length : Nat) : Rat)
    rw [List.map_map] at this
    refine Eq.trans this ?_
    rw [h.items, List.map_map]
    simp only [Tuner.mean, List.length_map]
    rfl
  have e2 : (a.chunks.map fun s => s.bytesPerStep / ((a.chunks.length : Nat) : Rat)).sum =
      Tuner.mean ((Tuner.chunkBuffer round).map fun c => ((c.bytes : Nat) : Rat) / ((c.length : Nat) : Rat)) := by
    have := Tuner.sum_div (a.chunks.map Statistic.bytesPerStep) ((a.chunks.length : Nat) : Rat)
    rw [List.map_map] at this
    refine Eq.trans this ?_
    rw [h.chunks, List.map_map]
    simp only [Tuner.mean, List.length_map]
    rfl
  have e3 : ((a.items ++ a.chunks).map Statistic.avgLength).sum / ((a.items.length + a.chunks.length : Nat) : Rat) = Tuner.length round := by
    rw [h.items, h.chunks, List.map_append, List.map_map, List.map_map]
    simp only [Tuner.length, Tuner.mean, List.length_map, List.length_append]
    rfl
  rw [e1, e2, e3]
  simp only [Tuner.scored, Tuner.cost, Score.mk.injEq, true_and]
  exact Rat.add_comm _ _

/-- What one more item does, when the buffers hold the current round. -/
theorem finalized_holds {a : AutoTuned} {round : List (List ChunkObs)} (h : a.Holds round) {refs : List ChunkObs} (hr : refs ≠ [])
    (ho : Tuner.OneEach (round ++ [refs])) :
    ∃ p : AutoTuned, p.maxLen = a.maxLen ∧ p.prev = a.prev ∧ p.keep = a.keep ∧ p.weight = a.weight ∧
      (Tuner.full (round ++ [refs]) = false → p.Holds (round ++ [refs]) ∧ a.onItemFinalized refs = some p) ∧
      (Tuner.full (round ++ [refs]) = true → p.Holds [] ∧
        a.onItemFinalized refs = some (p.adjust (Tuner.scored a.weight (round ++ [refs])))) := by
  have hp := push_holds h ho
  unfold onItemFinalized
  rw [if_neg hr]
  simp only
  generalize hq : (a.pushItem refs).pushChunks refs = q at hp
  have e : q.maxLen = a.maxLen ∧ q.prev = a.prev ∧ q.keep = a.keep ∧ q.weight = a.weight := by
    subst hq; exact ⟨rfl, rfl, rfl, rfl⟩
  have hi : q.items.length = min 10 (round ++ [refs]).length := by rw [hp.items, List.length_map, Tuner.newest_length]
  have hc : q.chunks.length = (Tuner.chunkBuffer (round ++ [refs])).length := by rw [hp.chunks, List.length_map]
  by_cases hf : Tuner.full (round ++ [refs]) = true
  · have hred := reduce_holds hp hf
    refine ⟨{ q with
      items := []
      chunks := [] }, e.1, e.2.1, e.2.2.1, e.2.2.2, fun hn => by simp [hf] at hn, fun _ => ⟨⟨rfl, rfl⟩, ?_⟩⟩
    simp only [Tuner.full, decide_eq_true_eq] at hf
    rw [if_neg (by simp only [numItems, numChunks, hi, hc]; omega), hred, e.2.2.2]
  · refine ⟨q, e.1, e.2.1, e.2.2.1, e.2.2.2, fun _ => ⟨hp, ?_⟩, fun hn => absurd hn hf⟩
    simp only [Tuner.full, decide_eq_true_eq] at hf
    rw [if_pos (by simp only [numItems, numChunks, hi, hc]; omega)]

/-- After any items the buffers hold the current round. -/
theorem after_holds (keep : Int) (w : Rat) (d : Bool) : ∀ (n : Nat) (items : List (List ChunkObs)), items.length = n →
    (∀ refs ∈ items, refs ≠ []) → Tuner.OneEach items →
    ∃ a, (new keep w d).after items = some a ∧ a.Holds (Tuner.roundOf items) ∧ a.keep = keep ∧ a.weight = w ∧
      ((a.prev = ⟨-1, -1⟩ ∧ ∀ pre refs rest, items = pre ++ refs :: rest → Tuner.full (Tuner.roundOf pre ++ [refs]) = false) ∨
        ∃ pre refs rest, items = pre ++ refs :: rest ∧ Tuner.full (Tuner.roundOf pre ++ [refs]) = true ∧
          a.prev = Tuner.scored w (Tuner.roundOf pre ++ [refs])) := by
  intro n
  induction n with
  | zero =>
    intro items hn _ _
    have : items = [] := List.length_eq_zero_iff.mp hn
    subst this
    exact ⟨_, rfl, ⟨rfl, rfl⟩, rfl, rfl, .inl ⟨rfl, fun pre refs rest he => by simp at he⟩⟩
  | succ n ih =>
    intro items hn hi ho
    have hne : items ≠ [] := by rintro rfl; simp at hn
    obtain ⟨its, refs, rfl⟩ : ∃ its refs, items = its ++ [refs] := ⟨_, _, (List.dropLast_concat_getLast hne).symm⟩
    have hsub : ∀ r ∈ its, r ∈ its ++ [refs] := fun r hr => by simp [hr]
    obtain ⟨a, h1, h2, h3, h4, h5⟩ := ih its (by simpa using hn) (fun r hr => hi r (hsub r hr))
      (fun r hr r' hr' => ho r (hsub r hr) r' (hsub r' hr'))
    have hor : Tuner.OneEach (Tuner.roundOf its ++ [refs]) := by
      have look : ∀ r ∈ Tuner.roundOf its ++ [refs], r ∈ its ++ [refs] := by
        intro r hr
        simp only [List.mem_append] at hr ⊢
        rcases hr with hr | hr
        · exact .inl (Tuner.mem_roundOf _ its rfl hr)
        · exact .inr hr
      exact fun r hr r' hr' => ho r (look r hr) r' (look r' hr')
    obtain ⟨p, p1, p2, p3, p4, p5, p6⟩ := finalized_holds h2 (hi refs (by simp)) hor
    rw [after_snoc, h1, Tuner.roundOf_snoc]
    simp only [Option.bind_some]
    cases hf : Tuner.full (Tuner.roundOf its ++ [refs]) with
    | false =>
      obtain ⟨q1, q2⟩ := p5 hf
      refine ⟨p, q2, by simpa using q1, p3.trans h3, p4.trans h4, ?_⟩
      rw [p2]
      rcases h5 with ⟨g1, g2⟩ | ⟨pre, r, rest, g1, g2, g3⟩
      · refine .inl ⟨g1, fun pre r rest he => ?_⟩
        rcases List.eq_nil_or_concat rest with rfl | ⟨rest', x, rfl⟩
        · have := List.append_inj' he (by simp)
          simp only [List.cons.injEq, and_true] at this
          rw [← this.1, ← this.2]
          exact hf
        · rw [List.concat_eq_append, ← List.cons_append, ← List.append_assoc] at he
          have := List.append_inj' he (by simp)
          exact g2 pre r rest' this.1
      · exact .inr ⟨pre, r, rest ++ [refs], by rw [g1]; simp, g2, g3⟩
    | true =>
      obtain ⟨q1, q2⟩ := p6 hf
      have keeps : (p.adjust (Tuner.scored a.weight (Tuner.roundOf its ++ [refs]))).Holds [] ∧
          (p.adjust (Tuner.scored a.weight (Tuner.roundOf its ++ [refs]))).keep = p.keep ∧
          (p.adjust (Tuner.scored a.weight (Tuner.roundOf its ++ [refs]))).weight = p.weight ∧
          ((p.adjust (Tuner.scored a.weight (Tuner.roundOf its ++ [refs]))).prev = Tuner.scored a.weight (Tuner.roundOf its ++ [refs]) ∨
            p.prev ≠ ⟨-1, -1⟩ ∧ (p.adjust (Tuner.scored a.weight (Tuner.roundOf its ++ [refs]))).prev = p.prev) := by
        unfold adjust
        split
        · exact ⟨⟨q1.items, q1.chunks⟩, rfl, rfl, .inl rfl⟩
        · rename_i hn
          have hn' : p.prev ≠ ⟨-1, -1⟩ := fun h => hn (by rw [h])
          simp only
          generalize (if (Tuner.scored a.weight (Tuner.roundOf its ++ [refs])).avgLength - p.maxLen < 0 then _ else _ : Rat) = dd
          split
          · exact ⟨q1, rfl, rfl, .inr ⟨hn', rfl⟩⟩
          · split <;> split
            · exact ⟨⟨q1.items, q1.chunks⟩, rfl, rfl, .inl rfl⟩
            · exact ⟨q1, rfl, rfl, .inr ⟨hn', rfl⟩⟩
            · exact ⟨⟨q1.items, q1.chunks⟩, rfl, rfl, .inl rfl⟩
            · exact ⟨q1, rfl, rfl, .inr ⟨hn', rfl⟩⟩
      obtain ⟨k1, k2, k3, k4⟩ := keeps
      refine ⟨_, q2, by simpa using k1, k2.trans (p3.trans h3), k3.trans (p4.trans h4), .inr ?_⟩
      rcases k4 with k4 | ⟨k4, k5⟩
      · exact ⟨its, refs, [], rfl, hf, by rw [k4, h4]⟩
      · rw [k5]
        rw [p2] at k4 ⊢
        rcases h5 with ⟨g1, _⟩ | ⟨pre, r, rest, g1, g2, g3⟩
        · exact absurd g1 k4
        · exact ⟨pre, r, rest ++ [refs], by rw [g1]; simp, g2, g3⟩

/-- The decision. -/
theorem adjust_rule {p : AutoTuned} {M keep : Int} {old : Score} (s : Score) (hM : p.maxLen = M) (hK : p.keep = keep) (hO : p.prev = old)
    (h1 : 1 ≤ M) (h2 : M ≤ keep) (hprev : old.avgLength = -1 ↔ old = ⟨-1, -1⟩) :
    (old = ⟨-1, -1⟩ → (p.adjust s).maxLen = min (M + 2) keep ∧ (p.adjust s).prev = s) ∧
    (old ≠ ⟨-1, -1⟩ → s.avgLength < M - 1 / 4 ∨ M + 1 / 4 < s.avgLength → (p.adjust s).maxLen = M ∧ (p.adjust s).prev = old) ∧
    (old ≠ ⟨-1, -1⟩ → M - 1 / 4 ≤ s.avgLength → s.avgLength ≤ M + 1 / 4 →
      (s.cost < old.cost → old.avgLength < s.avgLength → (p.adjust s).maxLen = min (M + 2) keep) ∧
      (s.cost < old.cost → s.avgLength ≤ old.avgLength → (p.adjust s).maxLen = max (M - 1) 1) ∧
      (old.cost ≤ s.cost → old.avgLength < s.avgLength → (p.adjust s).maxLen = max (M - 1) 1) ∧
      (old.cost ≤ s.cost → s.avgLength ≤ old.avgLength → (p.adjust s).maxLen = min (M + 2) keep) ∧
      (p.adjust s).prev = if (p.adjust s).maxLen = M then old else s) := by
  have he : p.adjust s = (⟨keep, p.delta, p.weight, M, old, p.items, p.chunks⟩ : AutoTuned).adjust s := by
    obtain ⟨a1, a2, a3, a4, a5, a6, a7⟩ := p
    simp only at hM hK hO
    subst hM hK hO
    rfl
  rw [he]
  clear he
  obtain ⟨al, c⟩ := s
  obtain ⟨oal, oc⟩ := old
  simp only at hprev
  clear hM hK hO
  unfold adjust
  refine ⟨fun hn => ?_, fun hn hd => ?_, fun hn hd1 hd2 => ?_⟩
  · rw [if_pos (hprev.mpr hn)]
    exact ⟨rfl, rfl⟩
  · rw [if_neg (fun h => hn (hprev.mp h))]
    have : (1 / 4 : Rat) < (if al - M < 0 then -(al - M) else al - M) := by
      simp only at hd
      generalize (M : Rat) = m at hd ⊢
      clear hprev hn h1 h2
      split <;> grind
    simp only
    rw [if_pos this]
    exact ⟨rfl, rfl⟩
  · rw [if_neg (fun h => hn (hprev.mp h))]
    have : ¬ (1 / 4 : Rat) < (if al - M < 0 then -(al - M) else al - M) := by
      simp only at hd1 hd2
      generalize (M : Rat) = m at hd1 hd2 ⊢
      clear hprev hn h1 h2
      split <;> grind
    simp only
    rw [if_neg this]
    simp only at hd1 hd2
    clear this hd1 hd2 hprev hn
    by_cases hc : c < oc <;> by_cases hl : oal < al
    · have e : min (max (M + 2) 1) keep = min (M + 2) keep := by omega
      simp only [hc, hl, decide_true, if_true, e]
      have := Rat.not_le.mpr hc
      have := Rat.not_le.mpr hl
      by_cases hm : min (M + 2) keep = M
      · rw [if_neg (by simpa using hm)]; simp [*]
      · rw [if_pos hm]; simp [*]
    · have e : min (max (M + -1) 1) keep = max (M - 1) 1 := by omega
      simp only [hc, hl, decide_true, decide_false, Bool.true_eq_false, if_false, e]
      have := Rat.not_le.mpr hc
      by_cases hm : max (M - 1) 1 = M
      · rw [if_neg (by simpa using hm)]; simp [*]
      · rw [if_pos hm]; simp [*]
    · have e : min (max (M + -1) 1) keep = max (M - 1) 1 := by omega
      simp only [hc, hl, decide_true, decide_false, Bool.false_eq_true, if_false, e]
      have := Rat.not_le.mpr hl
      by_cases hm : max (M - 1) 1 = M
      · rw [if_neg (by simpa using hm)]; simp [*]
      · rw [if_pos hm]; simp [*]
    · have e : min (max (M + 2) 1) keep = min (M + 2) keep := by omega
      simp only [hc, hl, decide_false, if_true, e]
      by_cases hm : min (M + 2) keep = M
      · rw [if_neg (by simpa using hm)]; simp [*]
      · rw [if_pos hm]; simp [*]

end AutoTuned
end Verif
