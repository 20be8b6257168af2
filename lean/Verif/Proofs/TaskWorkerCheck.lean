import Verif.Proofs.TaskWorker
/-
The deadlock checker of the task worker, and the times in the statistics.
-/
namespace Verif.TaskWorker

/-- The statistics tell that the thread is free (thread_stats.cc:36-37). -/
def Stats.free (s : Stats) : Prop := s.current < s.processed ∨ s.current = -1

theorem lastThread_free {ss : List Stats} {i : Nat} {last : Option Int} {index : Int} (h : ∃ s ∈ ss, s.free) :
    lastThread i last index ss = -1 := by
  induction ss generalizing i last index with
  | nil => obtain ⟨_, h, _⟩ := h; cases h
  | cons a ss ih =>
    simp only [lastThread]
    by_cases ha : a.current < a.processed ∨ a.current = -1
    · rw [if_pos ha]
    · rw [if_neg ha]
      have : ∃ s ∈ ss, s.free := by
        obtain ⟨s, hs, hf⟩ := h
        rcases List.mem_cons.mp hs with rfl | g
        · exact absurd hf ha
        · exact ⟨s, g, hf⟩
      split
      · exact ih this
      · exact ih this

theorem lastThread_busy (ss pre : List Stats) (last : Option Int) (k : Nat) (hb : ∀ s ∈ ss, ¬ s.free)
    (hl : last = none → pre = []) (hs : ∀ t, last = some t → ∃ s, pre[k]? = some s ∧ s.started = t ∧ ∀ x ∈ pre, x.started ≤ t)
    (hk : pre = [] → k = 0) :
    ∃ r : Nat, lastThread pre.length last k ss = r ∧ ((pre ++ ss = [] → r = 0) ∧ (pre ++ ss ≠ [] →
      ∃ s, (pre ++ ss)[r]? = some s ∧ ∀ x ∈ pre ++ ss, x.started ≤ s.started)) := by
  induction ss generalizing pre last k with
  | nil =>
    refine ⟨k, rfl, by simpa using hk, fun hne => ?_⟩
    simp only [List.append_nil] at hne ⊢
    cases last with
    | none => exact absurd (hl rfl) hne
    | some t =>
      obtain ⟨s, h1, h2, h3⟩ := hs t rfl
      exact ⟨s, h1, by rw [h2]; exact h3⟩
  | cons a ss ih =>
    have ha : ¬ (a.current < a.processed ∨ a.current = -1) := hb a (by simp)
    have hb' : ∀ s ∈ ss, ¬ s.free := fun s hs => hb s (by simp [hs])
    simp only [lastThread]
    rw [if_neg ha]
    have e : pre ++ a :: ss = (pre ++ [a]) ++ ss := by simp
    have el : pre.length + 1 = (pre ++ [a]).length := by simp
    rw [e, el]
    split
    · rename_i hlt
      refine ih (pre ++ [a]) (some a.started) pre.length hb' (by simp) ?_ (by simp)
      intro t ht
      cases ht
      refine ⟨a, by simp, rfl, fun x hx => ?_⟩
      rcases List.mem_append.mp hx with g | g
      · cases last with
        | none => rw [hl rfl] at g; cases g
        | some t =>
          obtain ⟨_, _, _, h3⟩ := hs t rfl
          have := h3 x g
          simp at hlt
          omega
      · simp only [List.mem_singleton] at g
        subst g
        exact Int.le_refl _
    · rename_i hlt
      cases last with
      | none => simp at hlt
      | some t =>
        obtain ⟨s, h1, h2, h3⟩ := hs t rfl
        refine ih (pre ++ [a]) (some t) k hb' (by simp) ?_ (by simp)
        intro t' ht
        cases ht
        have hk' : k < pre.length := (List.getElem?_eq_some_iff.mp h1).1
        refine ⟨s, by rw [List.getElem?_append_left hk']; exact h1, h2, fun x hx => ?_⟩
        rcases List.mem_append.mp hx with g | g
        · exact h3 x g
        · simp only [List.mem_singleton] at g
          subst g
          simp at hlt
          omega

/-- What the checker decides. -/
theorem judge_iff {snap : List Stats} {now : Int} (hne : snap ≠ []) :
    ∃ b, judge snap now = some b ∧ (b = true ↔ ∀ s ∈ snap, ¬ s.free ∧ timeToWarn ≤ now - s.started) := by
  unfold judge
  by_cases hf : ∃ s ∈ snap, s.free
  · refine ⟨false, ?_, ?_⟩
    · have := lastThread_free (i := 0) (last := none) (index := 0) hf
      simp [this]
    · constructor
      · intro h; cases h
      · intro h
        obtain ⟨s, h1, h2⟩ := hf
        exact absurd h2 (h s h1).1
  · have hb : ∀ s ∈ snap, ¬ s.free := fun s hs h => hf ⟨s, hs, h⟩
    obtain ⟨r, h1, _, h2⟩ := lastThread_busy snap [] none 0 hb (fun _ => rfl) (by simp) (fun _ => rfl)
    obtain ⟨s, h3, h4⟩ := h2 (by simpa using hne)
    simp only [List.length_nil, Int.ofNat_zero, List.nil_append, Int.cast_ofNat_Int] at h1 h3 h4
    rw [h1]
    have hr : ¬ ((r : Int) = -1) := by omega
    simp only [if_neg hr, Int.toNat_natCast, h3]
    refine ⟨_, rfl, ?_⟩
    simp only [decide_eq_true_eq]
    constructor
    · intro h x hx
      exact ⟨hb x hx, by have := h4 x hx; omega⟩
    · intro h
      exact (h s (List.mem_of_getElem? h3)).2

/-- The statistics `s` were those of thread `i` at some time. -/
def Saw (n : Nat) (max : Int) (as : List Act) (i : Nat) (s : Stats) : Prop :=
  ∃ pre post w1, as = pre ++ post ∧ run (TaskWorker.init n max) pre = some w1 ∧ w1.stats[i]? = some s

theorem Saw.more {n : Nat} {max : Int} {as : List Act} {i : Nat} {s : Stats} (h : Saw n max as i s) (a : Act) : Saw n max (as ++ [a]) i s := by
  obtain ⟨pre, post, w1, rfl, h2⟩ := h
  exact ⟨pre, post ++ [a], w1, by simp, h2⟩

/-- What the checker has read and what it has said. -/
structure K (n : Nat) (max : Int) (as : List Act) (w : W) : Prop where
  alive : w.dead = true → n = 0
  got : ∀ got, w.checker = some got → got.length ≤ n ∧ ∀ (i : Nat) s, got[i]? = some s → Saw n max as i s
  warned : ∀ p ∈ w.warnings, p.1.length = n ∧ ∀ (i : Nat) s, p.1[i]? = some s → Saw n max as i s ∧ ¬ s.free ∧ timeToWarn ≤ p.2 - s.started

theorem K.same {n : Nat} {max : Int} {as : List Act} {w w' : W} (a : Act) (h : K n max as w) (hd : w'.dead = w.dead)
    (hc : w'.checker = w.checker) (hw : w'.warnings = w.warnings) : K n max (as ++ [a]) w' := by
  refine ⟨by rw [hd]; exact h.alive, ?_, ?_⟩
  · rw [hc]
    intro got hg
    exact ⟨(h.got got hg).1, fun i s hi => ((h.got got hg).2 i s hi).more a⟩
  · rw [hw]
    intro p hp
    exact ⟨(h.warned p hp).1, fun i s hi => ⟨((h.warned p hp).2 i s hi).1.more a, ((h.warned p hp).2 i s hi).2⟩⟩

theorem K.step {n : Nat} {max : Int} {as : List Act} {w w' : W} {a : Act} (hr : run (TaskWorker.init n max) as = some w)
    (h : K n max as w) (hs : step w a = some w') : K n max (as ++ [a]) w' := by
  have hj := J.run hr
  cases a with
  | check =>
    simp only [TaskWorker.step] at hs
    split at hs <;> cases hs
    refine ⟨h.alive, ?_, (h.same .check rfl rfl rfl).warned⟩
    intro got hg
    cases hg
    exact ⟨by simp, by simp⟩
  | read =>
    simp only [TaskWorker.step] at hs
    split at hs
    · rename_i got hd hc
      split at hs
      · rename_i s hsi
        cases hs
        refine ⟨h.alive, ?_, (h.same .read rfl rfl rfl).warned⟩
        intro g hg
        cases hg
        have hlt : got.length < w.stats.length := (List.getElem?_eq_some_iff.mp hsi).1
        rw [hj.stats] at hlt
        refine ⟨by simp; omega, fun i s' hi => ?_⟩
        rw [List.getElem?_append] at hi
        split at hi
        · exact ((h.got got hc).2 i s' hi).more _
        · rename_i hge
          have : i = got.length := by
            have := (List.getElem?_eq_some_iff.mp hi).1
            simp at this
            omega
          subst this
          simp only [Nat.sub_self, List.getElem?_cons_zero, Option.some.injEq] at hi
          subst hi
          exact ⟨as, [.read], w, rfl, hr, hsi⟩
      · cases hs
    · cases hs
  | judge now =>
    simp only [TaskWorker.step] at hs
    split at hs
    · rename_i got hd hc
      split at hs
      · cases hs
      · rename_i hge
        have hlen : got.length = n := by
          have := (h.got got hc).1
          have := hj.stats
          omega
        split at hs
        · rename_i hu
          cases hs
          refine ⟨fun _ => ?_, (h.same (w' := w) (.judge now) rfl rfl rfl).got, (h.same (w' := w) (.judge now) rfl rfl rfl).warned⟩
          cases got with
          | nil => simpa using hlen.symm
          | cons x xs =>
            obtain ⟨b, hb, _⟩ := judge_iff (snap := x :: xs) (now := now) (by simp)
            rw [hb] at hu
            cases hu
        · rename_i b hb
          cases hs
          refine ⟨h.alive, nofun, ?_⟩
          intro p hp
          by_cases hbt : b = true
          · subst hbt
            simp only [if_true] at hp
            rcases List.mem_append.mp hp with g | g
            · exact (h.same (w' := w) (.judge now) rfl rfl rfl).warned p g
            · simp only [List.mem_singleton] at g
              subst g
              have hne : got ≠ [] := by
                rintro rfl
                simp [TaskWorker.judge, lastThread] at hb
              obtain ⟨b', hb', hiff⟩ := judge_iff (now := now) hne
              rw [hb] at hb'
              cases hb'
              have := hiff.mp rfl
              exact ⟨hlen, fun i s hi => ⟨((h.got got hc).2 i s hi).more _, this s (List.mem_of_getElem? hi)⟩⟩
          · simp only [if_neg hbt] at hp
            exact (h.same (w' := w) (.judge now) rfl rfl rfl).warned p hp
    · cases hs
  | schedule t =>
    simp only [TaskWorker.step] at hs
    split at hs
    · cases hs
    · rw [Option.map_eq_some_iff] at hs
      obtain ⟨p, hp, rfl⟩ := hs
      exact h.same _ rfl rfl rfl
  | pop i =>
    simp only [TaskWorker.step] at hs
    split at hs
    · cases hs
    · rw [Option.map_eq_some_iff] at hs
      obtain ⟨p, hp, rfl⟩ := hs
      exact h.same _ rfl rfl rfl
  | begin_ i now =>
    simp only [TaskWorker.step] at hs
    split at hs <;> cases hs
    exact h.same _ rfl rfl rfl
  | call i =>
    simp only [TaskWorker.step] at hs
    split at hs <;> cases hs
    exact h.same _ rfl rfl rfl
  | ret i =>
    simp only [TaskWorker.step] at hs
    split at hs <;> cases hs
    exact h.same _ rfl rfl rfl
  | count i =>
    simp only [TaskWorker.step] at hs
    split at hs
    · rw [Option.map_eq_some_iff] at hs
      obtain ⟨p, hp, rfl⟩ := hs
      exact h.same _ rfl rfl rfl
    · cases hs
  | close =>
    simp only [TaskWorker.step] at hs
    split at hs
    · cases hs
    · rw [Option.map_eq_some_iff] at hs
      obtain ⟨p, hp, rfl⟩ := hs
      exact h.same _ rfl rfl rfl
  | closePop =>
    simp only [TaskWorker.step] at hs
    split at hs
    · cases hs
    · rw [Option.map_eq_some_iff] at hs
      obtain ⟨p, hp, rfl⟩ := hs
      exact h.same _ rfl rfl rfl
  | closeRet =>
    simp only [TaskWorker.step] at hs
    split at hs
    · cases hs
    · rw [Option.map_eq_some_iff] at hs
      obtain ⟨p, hp, rfl⟩ := hs
      exact h.same _ rfl rfl rfl
  | join =>
    simp only [TaskWorker.step] at hs
    split at hs
    · cases hs
    · rw [Option.map_eq_some_iff] at hs
      obtain ⟨p, hp, rfl⟩ := hs
      exact h.same _ rfl rfl rfl

/-- Induction over the runs from the constructor. -/
theorem run_induction {n : Nat} {max : Int} {P : List Act → W → Prop} (h0 : P [] (TaskWorker.init n max))
    (hs : ∀ as w a w', run (TaskWorker.init n max) as = some w → P as w → TaskWorker.step w a = some w' → P (as ++ [a]) w')
    {as : List Act} {w : W} (h : run (TaskWorker.init n max) as = some w) : P as w := by
  have key : ∀ (bs pre : List Act) (w0 : W), run (TaskWorker.init n max) pre = some w0 → P pre w0 → run w0 bs = some w → P (pre ++ bs) w := by
    intro bs
    induction bs with
    | nil => intro pre w0 _ hp hr; cases hr; simpa using hp
    | cons b bs ih =>
      intro pre w0 h1 hp hr
      simp only [run] at hr
      cases hb : TaskWorker.step w0 b with
      | none => rw [hb] at hr; cases hr
      | some w1 =>
        rw [hb] at hr
        have := ih (pre ++ [b]) w1 (by rw [run_append, h1]; simp [run, hb]) (hs _ _ _ _ h1 hp hb) hr
        simpa using this
  simpa using key as [] _ rfl h0 h

theorem K.run {n : Nat} {max : Int} {as : List Act} {w : W} (h : run (TaskWorker.init n max) as = some w) : K n max as w :=
  run_induction (P := K n max) ⟨nofun, nofun, nofun⟩ (fun _ _ _ _ hr hk hs => hk.step hr hs) h

/-- The numbers and the times in the statistics, and the limit. -/
structure Times (max : Int) (as : List Act) (w : W) : Prop where
  limit : w.max = (max % 18446744073709551616).toNat
  begun : ∀ (i : Nat) s, w.stats[i]? = some s → s.current + 1 = begins i as ∧ s.started = begunAt i as

theorem Times.same {max : Int} {as : List Act} {w w' : W} {a : Act} (h : Times max as w) (hm : w'.max = w.max)
    (hs : ∀ (i : Nat) s', w'.stats[i]? = some s' → ∃ s, w.stats[i]? = some s ∧ s'.current = s.current ∧ s'.started = s.started)
    (ha : ∀ i now, a ≠ .begin_ i now) : Times max (as ++ [a]) w' := by
  refine ⟨hm.trans h.limit, fun i s hi => ?_⟩
  obtain ⟨s0, h0, hcur, hst⟩ := hs i s hi
  obtain ⟨h1, h2⟩ := h.begun i s0 h0
  rw [hcur, hst, h1, h2]
  unfold begins begunAt
  rw [List.countP_append, List.foldl_append]
  cases a with
  | begin_ j now => exact absurd rfl (ha j now)
  | _ => exact ⟨rfl, rfl⟩

theorem Times.step {max : Int} {as : List Act} {w w' : W} {a : Act} (h : Times max as w) (hs : TaskWorker.step w a = some w') :
    Times max (as ++ [a]) w' := by
  have keep : ∀ (i : Nat) s', w.stats[i]? = some s' → ∃ s, w.stats[i]? = some s ∧ s'.current = s.current ∧ s'.started = s.started :=
    fun i s' hi => ⟨s', hi, rfl, rfl⟩
  cases a with
  | begin_ i now =>
    simp only [TaskWorker.step] at hs
    split at hs
    · rename_i t s hd hst hsi
      cases hs
      refine ⟨h.limit, fun j s' hj => ?_⟩
      have hlt : i < w.stats.length := (List.getElem?_eq_some_iff.mp hsi).1
      simp only [List.getElem?_set] at hj
      unfold begins begunAt
      rw [List.countP_append, List.foldl_append]
      by_cases hij : i = j
      · subst hij
        simp only [if_true, hlt, Option.some.injEq] at hj
        subst hj
        obtain ⟨h1, _⟩ := h.begun i s hsi
        unfold begins at h1
        simp
        omega
      · rw [if_neg hij] at hj
        obtain ⟨h1, h2⟩ := h.begun j s' hj
        unfold begins at h1
        unfold begunAt at h2
        have : ¬ j = i := fun e => hij e.symm
        simp [this]
        exact ⟨h1, h2⟩
    · cases hs
  | count i =>
    simp only [TaskWorker.step] at hs
    split at hs
    · rename_i t s hd hst hsi
      rw [Option.map_eq_some_iff] at hs
      obtain ⟨p, hp, rfl⟩ := hs
      refine h.same rfl ?_ nofun
      intro j s' hj
      simp only [List.getElem?_set] at hj
      by_cases hij : i = j
      · subst hij
        have hlt : i < w.stats.length := (List.getElem?_eq_some_iff.mp hsi).1
        simp only [if_true, hlt, Option.some.injEq] at hj
        subst hj
        exact ⟨s, hsi, rfl, rfl⟩
      · rw [if_neg hij] at hj
        exact keep j s' hj
    · cases hs
  | call i =>
    simp only [TaskWorker.step] at hs
    split at hs <;> cases hs
    exact h.same rfl keep nofun
  | ret i =>
    simp only [TaskWorker.step] at hs
    split at hs <;> cases hs
    exact h.same rfl keep nofun
  | check =>
    simp only [TaskWorker.step] at hs
    split at hs <;> cases hs
    exact h.same rfl keep nofun
  | read =>
    simp only [TaskWorker.step] at hs
    split at hs
    · split at hs <;> cases hs
      exact h.same rfl keep nofun
    · cases hs
  | judge now =>
    simp only [TaskWorker.step] at hs
    split at hs
    · split at hs
      · cases hs
      · split at hs <;> cases hs <;> exact h.same rfl keep nofun
    · cases hs
  | schedule t | pop i | close | closePop | closeRet | join =>
    simp only [TaskWorker.step] at hs
    split at hs
    · cases hs
    · rw [Option.map_eq_some_iff] at hs
      obtain ⟨p, hp, rfl⟩ := hs
      exact h.same rfl keep nofun

theorem Times.run {n : Nat} {max : Int} {as : List Act} {w : W} (h : run (TaskWorker.init n max) as = some w) : Times max as w := by
  refine run_induction (P := Times max) ⟨rfl, ?_⟩ (fun _ _ _ _ _ hk hs => hk.step hs) h
  intro i s hi
  simp only [TaskWorker.init, List.getElem?_replicate] at hi
  split at hi <;> cases hi
  exact ⟨rfl, rfl⟩

/-- While the threads are stuck the statistics stay the same, and what the checker reads are these. -/
theorem stuck_step {w w' : W} {a : Act} (ha : a.stuck = true) (hs : TaskWorker.step w a = some w') :
    w'.stats = w.stats ∧ (∀ got, w.checker = some got → (∃ k, got = w.stats.take k) → ∃ got' k, w'.checker = some got' ∧ got' = w.stats.take k) := by
  have triv : ∀ got, w.checker = some got → (∃ k, got = w.stats.take k) → ∃ got' k, w.checker = some got' ∧ got' = w.stats.take k :=
    fun got h1 ⟨k, h2⟩ => ⟨got, k, h1, h2⟩
  cases a with
  | begin_ i now => cases ha
  | count i => cases ha
  | check => cases ha
  | judge now => cases ha
  | call i =>
    simp only [TaskWorker.step] at hs
    split at hs <;> cases hs
    exact ⟨rfl, triv⟩
  | ret i =>
    simp only [TaskWorker.step] at hs
    split at hs <;> cases hs
    exact ⟨rfl, triv⟩
  | read =>
    simp only [TaskWorker.step] at hs
    split at hs
    · rename_i got hd hc
      split at hs
      · rename_i s hsi
        cases hs
        refine ⟨rfl, fun g hg hk => ?_⟩
        rw [hc] at hg
        cases hg
        obtain ⟨k, rfl⟩ := hk
        have hlt := (List.getElem?_eq_some_iff.mp hsi).1
        refine ⟨_, (w.stats.take k).length + 1, rfl, ?_⟩
        rw [List.take_add_one, hsi]
        have : w.stats.take (w.stats.take k).length = w.stats.take k := by
          rw [List.length_take, List.take_eq_take_iff]
          omega
        rw [this]
        rfl
      · cases hs
    · cases hs
  | schedule t | pop i | close | closePop | closeRet | join =>
    simp only [TaskWorker.step] at hs
    split at hs
    · cases hs
    · rw [Option.map_eq_some_iff] at hs
      obtain ⟨p, hp, rfl⟩ := hs
      exact ⟨rfl, triv⟩

theorem stuck_run {bs : List Act} {w w' : W} (hb : bs.all Act.stuck = true) (hs : run w bs = some w') (hc : ∃ got k, w.checker = some got ∧ got = w.stats.take k) :
    w'.stats = w.stats ∧ ∃ got k, w'.checker = some got ∧ got = w.stats.take k := by
  induction bs generalizing w with
  | nil => cases hs; exact ⟨rfl, hc⟩
  | cons b bs ih =>
    simp only [List.all_cons, Bool.and_eq_true] at hb
    simp only [run] at hs
    cases hb' : TaskWorker.step w b with
    | none => rw [hb'] at hs; cases hs
    | some w1 =>
      rw [hb'] at hs
      obtain ⟨h1, h2⟩ := stuck_step hb.1 hb'
      obtain ⟨got, k, g1, g2⟩ := hc
      have h3 := h2 got g1 ⟨k, g2⟩
      rw [← h1] at h3
      obtain ⟨g3, g4⟩ := ih hb.2 hs h3
      rw [h1] at g3 g4
      exact ⟨g3, g4⟩

end Verif.TaskWorker
