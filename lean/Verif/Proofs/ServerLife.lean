import Verif.Spec.ServerLife
/-
Invariants of the life of servers.
-/
namespace Verif
namespace Periodic

/-- What holds of a `PeriodicClosure`. -/
structure Inv (p : Periodic) : Prop where
  period : 0 ≤ p.period
  serial : Serial p.period p.log
  past : ∀ r ∈ p.log, r.start ≤ p.now ∧ ∀ f, r.finish = some f → r.start ≤ f ∧ f ≤ p.now
  next : ∀ n, p.worker = .sleeping n ∨ p.worker = .running n → ∀ r ∈ p.log, r.start + p.period ≤ n
  done : (∀ n, p.worker ≠ .running n) → ∀ r ∈ p.log, r.finish.isSome
  open_ : ∀ n, p.worker = .running n → ∃ l r, p.log = l ++ [r] ∧ r.finish = none ∧ ∀ x ∈ l, x.finish.isSome
  fresh : p.worker = .none → p.stopped = false → p.log = []
  ended : p.worker = .ended → p.stopped = false → False
  joining : p.joining = true → p.stopped = true
  joined : p.joined = true → p.stopped = true ∧ p.joining = false ∧ p.worker = .none

theorem inv_init {period now : Int} {p : Periodic} (h : init period now = some p) : Inv p := by
  unfold init at h
  split at h
  · cases h
  · cases h
    exact ⟨by dsimp only; omega, List.Pairwise.nil, (by simp), (by simp), (by simp), (by simp), fun _ _ => rfl, (by simp), (by simp), (by simp)⟩

theorem inv_step {p p' : Periodic} {e : Event} (h : Inv p) (hs : step p e = some p') : Inv p' := by
  obtain ⟨per, st, w, now, log, ans, jg, jd⟩ := p
  obtain ⟨h1, h2, h3, h4, h5, h6, h7, h10, h9, h8⟩ := h
  dsimp only at h1 h2 h3 h4 h5 h6 h7 h8 h9 h10
  cases e with
  | start =>
    simp only [step] at hs
    split at hs
    · cases hs; exact ⟨h1, h2, h3, h4, h5, h6, h7, h10, h9, h8⟩
    · split at hs
      · cases hs; exact ⟨h1, h2, h3, h4, h5, h6, h7, h10, h9, h8⟩
      · rename_i hst hw
        have hw : w = .none := Classical.not_not.1 hw
        have hst : st = false := by simpa using hst
        cases hs
        have hl := h7 hw hst
        subst hl
        refine ⟨h1, h2, h3, (by simp), (by simp), (by simp), (by simp), (by simp), h9, fun hj => ?_⟩
        have := (h8 hj).1
        simp_all
  | stop =>
    simp only [step] at hs
    split at hs
    · cases hs; exact ⟨h1, h2, h3, h4, h5, h6, h7, h10, h9, h8⟩
    · rename_i hst
      cases hs
      refine ⟨h1, h2, h3, h4, h5, h6, (by simp), (by simp), (by simp), fun hj => ?_⟩
      exact absurd (h8 hj).1 hst
  | join =>
    simp only [step] at hs
    split at hs
    · rename_i hc
      cases hs
      refine ⟨h1, h2, h3, (by simp), fun _ => ?_, (by simp), fun _ hst => ?_, (by simp), (by simp), fun _ => ⟨h9 hc.1, rfl, rfl⟩⟩
      · apply h5
        rintro n rfl
        rcases hc.2 with h | h <;> cases h
      · exact absurd (h9 hc.1) (by simp at hst; simp [hst])
    · cases hs
  | wake =>
    simp only [step] at hs
    split at hs
    · rename_i next
      split at hs
      · rename_i hc
        cases hs
        refine ⟨h1, ?_, ?_, ?_, ?_, ?_, (by simp), (by simp), h9, ?_⟩
        · unfold Serial
          rw [List.pairwise_append]
          refine ⟨h2, List.pairwise_singleton _ _, fun a ha b hb => ?_⟩
          simp only [List.mem_singleton] at hb
          subst hb
          have hd := h5 (by simp) a ha
          obtain ⟨f, hf⟩ := Option.isSome_iff_exists.1 hd
          have hp := (h3 a ha).2 f hf
          have hn := h4 next (Or.inl rfl) a ha
          exact ⟨⟨f, hf, hp.1, hp.2⟩, by have := hc.2; dsimp only; omega⟩
        · intro r hr
          rcases List.mem_append.1 hr with hr | hr
          · exact h3 r hr
          · simp only [List.mem_singleton] at hr; subst hr; simp
        · intro n hn r hr
          simp at hn
          rcases List.mem_append.1 hr with hr | hr
          · have := (h3 r hr).1; dsimp only at *; omega
          · simp only [List.mem_singleton] at hr; subst hr; dsimp only at *; omega
        · intro hne; exact absurd rfl (hne _)
        · intro n _
          exact ⟨log, _, rfl, rfl, h5 (by simp)⟩
        · intro hj
          exact absurd (h8 hj).2.2 (by simp)
      · cases hs
    · cases hs
  | leave =>
    simp only [step] at hs
    split at hs
    · rename_i next
      split at hs
      · rename_i hst
        cases hs
        exact ⟨h1, h2, h3, (by simp), fun _ => h5 (by simp), (by simp), (by simp), (fun _ h => by simp at h; simp [h] at hst), h9, fun hj => absurd (h8 hj).2.2 (by simp)⟩
      · cases hs
    · cases hs
  | finish =>
    simp only [step] at hs
    split at hs
    · rename_i next
      cases hs
      obtain ⟨l, r, hl, hr, hd⟩ := h6 next rfl
      subst hl
      simp only [List.dropLast_concat, List.getLast?_concat, Option.map_some, Option.toList_some]
      have hl2 := List.pairwise_append.1 h2
      refine ⟨h1, ?_, ?_, ?_, ?_, (by simp), (by simp), (by simp), h9, fun hj => absurd (h8 hj).2.2 (by simp)⟩
      · unfold Serial
        rw [List.pairwise_append]
        refine ⟨hl2.1, List.pairwise_singleton _ _, fun a ha b hb => ?_⟩
        simp only [List.mem_singleton] at hb
        subst hb
        exact hl2.2.2 a ha r (by simp)
      · intro x hx
        rcases List.mem_append.1 hx with hx | hx
        · exact h3 x (List.mem_append_left _ hx)
        · simp only [List.mem_singleton] at hx
          subst hx
          have := (h3 r (by simp)).1
          refine ⟨this, fun f hf => ?_⟩
          cases hf
          exact ⟨this, Int.le_refl _⟩
      · intro n hn x hx
        have hn : next = n := by simpa using hn
        subst hn
        rcases List.mem_append.1 hx with hx | hx
        · exact h4 next (Or.inr rfl) x (List.mem_append_left _ hx)
        · simp only [List.mem_singleton] at hx
          subst hx
          exact h4 next (Or.inr rfl) r (by simp)
      · intro _ x hx
        rcases List.mem_append.1 hx with hx | hx
        · exact hd x hx
        · simp only [List.mem_singleton] at hx; subst hx; rfl
    · cases hs
  | pass d =>
    cases hs
    refine ⟨h1, h2, ?_, h4, h5, h6, h7, h10, h9, h8⟩
    intro r hr
    have := h3 r hr
    refine ⟨by dsimp only; omega, fun f hf => ?_⟩
    have := this.2 f hf
    exact ⟨this.1, by dsimp only; omega⟩

theorem inv_run : ∀ {es : List Event} {p p' : Periodic}, Inv p → run p es = some p' → Inv p'
  | [], p, p', h, hs => by cases hs; exact h
  | e :: es, p, p', h, hs => by
    unfold run at hs
    split at hs
    · cases hs
    · rename_i s1 h1
      exact inv_run (inv_step h h1) hs

theorem period_step {p p' : Periodic} {e : Event} (hs : step p e = some p') : p'.period = p.period := by
  cases e <;> simp only [step] at hs <;> (repeat' split at hs) <;> cases hs <;> rfl

theorem period_run : ∀ {es : List Event} {p p' : Periodic}, run p es = some p' → p'.period = p.period
  | [], p, p', hs => by cases hs; rfl
  | e :: es, p, p', hs => by
    unfold run at hs
    split at hs
    · cases hs
    · rename_i s1 h1
      rw [period_run hs, period_step h1]

/-- The time of the next run is a period after the start of the last one. -/
def Due (p : Periodic) : Prop := ∀ n, p.worker = .sleeping n ∨ p.worker = .running n → ∀ l r, p.log = l ++ [r] → n = r.start + p.period

theorem due_step {p p' : Periodic} {e : Event} (hi : Inv p) (h : Due p) (hs : step p e = some p') : Due p' := by
  obtain ⟨per, st, w, now, log, ans, jg, jd⟩ := p
  cases e with
  | start =>
    simp only [step] at hs
    split at hs
    · cases hs; exact h
    · split at hs
      · cases hs; exact h
      · rename_i hst hw
        have hl := hi.fresh (Classical.not_not.1 hw) (by simpa using hst)
        cases hs
        dsimp only at hl
        subst hl
        intro n _ l r hlr
        simp at hlr
  | stop =>
    simp only [step] at hs
    split at hs <;> cases hs <;> exact h
  | join =>
    simp only [step] at hs
    split at hs
    · cases hs
      intro n hn
      rcases hn with hn | hn <;> cases hn
    · cases hs
  | wake =>
    simp only [step] at hs
    split at hs
    · split at hs
      · cases hs
        intro n hn l r hlr
        have hn : now + per = n := by simpa using hn
        have hr := congrArg List.getLast? hlr
        simp at hr
        subst hr
        exact hn.symm
      · cases hs
    · cases hs
  | leave =>
    simp only [step] at hs
    split at hs
    · split at hs
      · cases hs
        intro n hn
        rcases hn with hn | hn <;> cases hn
      · cases hs
    · cases hs
  | finish =>
    simp only [step] at hs
    split at hs
    · rename_i next
      cases hs
      obtain ⟨l, r, hl, -, -⟩ := hi.open_ next rfl
      dsimp only at hl
      subst hl
      intro n hn l' r' hlr
      have hn : next = n := by simpa using hn
      subst hn
      have hr := congrArg List.getLast? hlr
      simp at hr
      subst hr
      exact h next (Or.inr rfl) l r rfl
    · cases hs
  | pass d =>
    cases hs
    exact h

theorem due_run : ∀ {es : List Event} {p p' : Periodic}, Inv p → Due p → run p es = some p' → Due p'
  | [], p, p', _, h, hs => by cases hs; exact h
  | e :: es, p, p', hi, h, hs => by
    unfold run at hs
    split at hs
    · cases hs
    · rename_i s1 h1
      exact due_run (inv_step hi h1) (due_step hi h h1) hs

/-- After `Stop` has returned nothing runs any more. -/
theorem joined_step {p p' : Periodic} {e : Event} (h : Inv p) (hj : p.joined = true) (hs : step p e = some p') :
    p'.joined = true ∧ p'.log = p.log := by
  obtain ⟨h1, h2, h3⟩ := h.joined hj
  cases e <;> simp only [step, h1, h2, h3] at hs <;> simp at hs <;> subst hs <;> exact ⟨hj, rfl⟩

theorem joined_run : ∀ {es : List Event} {p p' : Periodic}, Inv p → p.joined = true → run p es = some p' → p'.joined = true ∧ p'.log = p.log
  | [], p, p', _, hj, hs => by cases hs; exact ⟨hj, rfl⟩
  | e :: es, p, p', h, hj, hs => by
    unfold run at hs
    split at hs
    · cases hs
    · rename_i s1 h1
      obtain ⟨a, b⟩ := joined_step h hj h1
      obtain ⟨c, d⟩ := joined_run (inv_step h h1) a hs
      exact ⟨c, d.trans b⟩

end Periodic

namespace Process

theorem getElem?_stop (l : List LiveServer) (i j : Nat) (f : LiveServer → LiveServer) :
    (l.modify i f)[j]? = if i = j then l[j]?.map f else l[j]? := by
  rw [List.getElem?_modify]
  split <;> simp

/-- What holds of a process with `n` servers. -/
structure Inv (n : Nat) (sig : Bool) (p : Process) : Prop where
  len : p.servers.length = n
  waits : ∀ w ∈ p.waits, w.1 < n
  closed : ∀ (i : Nat) (s : LiveServer), p.servers[i]? = some s → s.closed = (if s.running then 0 else 1)
  returned : ∀ k i b, p.Returned k i b → (¬ p.Running i) ∧ (b = true → sig = true)
  signalled : ∀ (i : Nat) (s : LiveServer), p.servers[i]? = some s → s.signalled = true → sig = true
  target : ∀ i, p.target = some i → i < n

theorem inv_init (n : Nat) : Inv n false (init n) := by
  refine ⟨by simp [init], by simp [init], ?_, ?_, ?_, by simp [init]⟩
  · intro i s hs
    simp [init, List.getElem?_replicate] at hs
    obtain ⟨-, rfl⟩ := hs
    rfl
  · intro k i b h
    simp [Returned, init] at h
  · intro i s hs
    simp [init, List.getElem?_replicate] at hs
    obtain ⟨-, rfl⟩ := hs
    simp

/-- A step that changes only servers, and makes none run. -/
theorem not_running {p : Process} {i : Nat} {l : List LiveServer} (h : ∀ s', l[i]? = some s' → s'.running = true → ∃ s, p.servers[i]? = some s ∧ s.running = true)
    (hn : ¬ p.Running i) : ¬ ∃ s, l[i]? = some s ∧ s.running = true := by
  rintro ⟨s, hs, hr⟩
  exact hn (h s hs hr)

theorem stop_running {s : LiveServer} : (stopServer s).running = false := by
  unfold stopServer
  split
  · rfl
  · rename_i h; simpa using h

theorem stop_closed {s : LiveServer} (h : s.closed = if s.running then 0 else 1) : (stopServer s).closed = 1 := by
  unfold stopServer
  split
  · rename_i hr; simp [hr] at h; simp [h]
  · rename_i hr; simpa [hr] using h

theorem stop_signalled (s : LiveServer) : (stopServer s).signalled = s.signalled := by
  unfold stopServer
  split <;> rfl

/-- Is it the signal? -/
def isSig : Event → Bool
  | .sigint => true
  | _ => false

theorem inv_step {n : Nat} {sig : Bool} {p p' : Process} {e : Event} (h : Inv n sig p) (hs : step p e = some p') : Inv n (sig || isSig e) p' := by
  obtain ⟨hlen, hw, hc, hr, hsg, ht⟩ := h
  -- a step that modifies a server
  have key : ∀ (i : Nat) (f : LiveServer → LiveServer) (sg : Bool), (sig = true → sg = true) →
      (∀ s, s.closed = (if s.running then 0 else 1) → (f s).closed = if (f s).running then 0 else 1) →
      (∀ s, (f s).running = true → s.running = true) → (∀ s, (f s).signalled = true → s.signalled = true ∨ sg = true) →
      Inv n sg { p with servers := p.servers.modify i f } := by
    intro i f sg hsig hf1 hf2 hf3
    refine ⟨by simp [hlen], hw, ?_, ?_, ?_, ht⟩
    · intro j s hj
      dsimp only at hj
      rw [getElem?_stop] at hj
      split at hj
      · obtain ⟨s0, h0, rfl⟩ := Option.map_eq_some_iff.1 hj
        exact hf1 _ (hc _ _ h0)
      · exact hc _ _ hj
    · intro k j b hret
      obtain ⟨a1, a2⟩ := hr k j b hret
      refine ⟨?_, fun hb => hsig (a2 hb)⟩
      rintro ⟨s, hj, hrun⟩
      dsimp only at hj
      rw [getElem?_stop] at hj
      split at hj
      · obtain ⟨s0, h0, rfl⟩ := Option.map_eq_some_iff.1 hj
        exact a1 ⟨s0, h0, hf2 _ hrun⟩
      · exact a1 ⟨s, hj, hrun⟩
    · intro j s hj hsg'
      dsimp only at hj
      rw [getElem?_stop] at hj
      split at hj
      · obtain ⟨s0, h0, rfl⟩ := Option.map_eq_some_iff.1 hj
        rcases hf3 _ hsg' with h | h
        · exact hsig (hsg _ _ h0 h)
        · exact h
      · exact hsig (hsg _ _ hj hsg')
  cases e with
  | stop i =>
    simp only [step] at hs
    split at hs
    · cases hs
      refine key i _ _ (fun h => by simp [h]) (fun s h => ?_) (fun s h => ?_) (fun s h => ?_)
      · rw [stop_closed h, stop_running]; rfl
      · rw [stop_running] at h; cases h
      · rw [stop_signalled] at h; exact Or.inl h
    · cases hs
  | tick i =>
    simp only [step] at hs
    split at hs
    · cases hs
      refine key i _ _ (fun h => by simp [h]) (fun s h => ?_) (fun s h => ?_) (fun s h => ?_)
      · split
        · rw [stop_closed h, stop_running]; rfl
        · exact h
      · split at h
        · rw [stop_running] at h; cases h
        · exact h
      · split at h
        · rw [stop_signalled] at h; exact Or.inl h
        · exact Or.inl h
    · cases hs
  | sigint =>
    simp only [step] at hs
    split at hs
    · cases hs
      exact ⟨hlen, hw, hc, fun k i b h => ⟨(hr k i b h).1, fun _ => by simp [isSig]⟩, fun _ _ _ _ => by simp [isSig], ht⟩
    · split at hs
      · cases hs
        exact key _ _ _ (by simp [isSig]) (fun s h => h) (fun s h => h) (fun s h => by simp [isSig])
      · cases hs
        exact ⟨hlen, hw, hc, fun k i b h => ⟨(hr k i b h).1, fun _ => by simp [isSig]⟩, fun _ _ _ _ => by simp [isSig], ht⟩
  | wait i =>
    simp only [step] at hs
    split at hs
    · cases hs
    · rename_i s0 h0
      cases hs
      have hi : i < n := by
        rw [← hlen]
        exact (List.getElem?_eq_some_iff.1 h0).1
      simp only [isSig, Bool.or_false]
      refine ⟨hlen, ?_, hc, ?_, hsg, ht⟩
      · intro w hw'
        rcases List.mem_append.1 hw' with h | h
        · exact hw w h
        · simp only [List.mem_singleton] at h; subst h; exact hi
      · intro k j b hret
        unfold Returned at hret
        dsimp only at hret
        rw [List.getElem?_append] at hret
        split at hret
        · exact hr k j b hret
        · rw [List.getElem?_singleton] at hret
          split at hret
          · simp only [Option.some.injEq, Prod.mk.injEq] at hret
            obtain ⟨rfl, hret⟩ := hret
            split at hret
            · cases hret
            · rename_i hrun
              cases hret
              refine ⟨?_, (by simp)⟩
              rintro ⟨s, hs, hsr⟩
              dsimp only at hs
              rw [h0] at hs
              cases hs
              exact hrun hsr
          · cases hret
  | register k =>
    simp only [step] at hs
    split at hs
    · rename_i i hk
      cases hs
      have hi : i < n := hw _ (List.mem_of_getElem? hk)
      simp only [isSig, Bool.or_false]
      refine ⟨hlen, ?_, hc, ?_, hsg, ?_⟩
      · intro w hw'
        rcases List.mem_or_eq_of_mem_set hw' with h | h
        · exact hw w h
        · subst h; exact hi
      · intro k' j b hret
        unfold Returned at hret
        dsimp only at hret
        rw [List.getElem?_set] at hret
        split at hret
        · split at hret <;> cases hret
        · exact hr k' j b hret
      · intro j hj
        cases hj
        exact hi
    · cases hs
  | unblock k =>
    simp only [step] at hs
    split at hs
    · rename_i i hk
      have hi : i < n := hw _ (List.mem_of_getElem? hk)
      split at hs
      · rename_i s0 h0
        split at hs
        · cases hs
        · rename_i hrun
          cases hs
          simp only [isSig, Bool.or_false]
          refine ⟨hlen, ?_, hc, ?_, hsg, (by simp)⟩
          · intro w hw'
            rcases List.mem_or_eq_of_mem_set hw' with h | h
            · exact hw w h
            · subst h; exact hi
          · intro k' j b hret
            unfold Returned at hret
            dsimp only at hret
            rw [List.getElem?_set] at hret
            split at hret
            · split at hret
              · cases hret
                refine ⟨?_, fun hb => hsg _ _ h0 hb⟩
                rintro ⟨s, hs, hsr⟩
                dsimp only at hs
                rw [h0] at hs
                cases hs
                exact hrun hsr
              · cases hret
            · exact hr k' j b hret
      · cases hs
    · cases hs

theorem inv_run {n : Nat} : ∀ {es : List Event} {sig : Bool} {p p' : Process}, Inv n sig p → run p es = some p' → Inv n (sig || es.any isSig) p'
  | [], sig, p, p', h, hs => by cases hs; simpa using h
  | e :: es, sig, p, p', h, hs => by
    unfold run at hs
    split at hs
    · cases hs
    · rename_i s1 h1
      have := inv_run (inv_step h h1) hs
      simpa [Bool.or_assoc] using this

/-- With one server: while it runs and somebody waits for it, a signal is for this server. -/
structure One (p : Process) : Prop where
  target : ∀ k, p.Waiting k 0 → p.Running 0 → p.target = some 0 ∧ p.handler = true

theorem one_step {sig : Bool} {p p' : Process} {e : Event} (hi : Inv 1 sig p) (h : One p) (hs : step p e = some p') : One p' := by
  have key : ∀ (i : Nat) (f : LiveServer → LiveServer), (∀ s, (f s).running = true → s.running = true) → One { p with servers := p.servers.modify i f } := by
    intro i f hf
    refine ⟨fun k hk hrun => h.target k hk ?_⟩
    obtain ⟨s, hs, hr⟩ := hrun
    dsimp only at hs
    rw [getElem?_stop] at hs
    split at hs
    · obtain ⟨s0, h0, rfl⟩ := Option.map_eq_some_iff.1 hs
      exact ⟨s0, h0, hf _ hr⟩
    · exact ⟨s, hs, hr⟩
  cases e with
  | stop i =>
    simp only [step] at hs
    split at hs
    · cases hs
      exact key _ _ fun s h => by rw [stop_running] at h; cases h
    · cases hs
  | tick i =>
    simp only [step] at hs
    split at hs
    · cases hs
      refine key _ _ fun s h => ?_
      split at h
      · rw [stop_running] at h; cases h
      · exact h
    · cases hs
  | sigint =>
    simp only [step] at hs
    split at hs
    · cases hs; exact ⟨h.target⟩
    · split at hs
      · cases hs
        exact key _ _ fun s h => h
      · cases hs; exact ⟨h.target⟩
  | wait i =>
    simp only [step] at hs
    split at hs
    · cases hs
    · cases hs
      refine ⟨fun k hk hrun => ?_⟩
      unfold Waiting at hk
      dsimp only at hk
      rw [List.getElem?_append] at hk
      split at hk
      · exact h.target k hk hrun
      · rw [List.getElem?_singleton] at hk
        split at hk
        · simp only [Option.some.injEq, Prod.mk.injEq] at hk
          obtain ⟨-, hk⟩ := hk
          split at hk <;> cases hk
        · cases hk
  | register k =>
    simp only [step] at hs
    split at hs
    · rename_i i hk
      cases hs
      have : i < 1 := hi.waits _ (List.mem_of_getElem? hk)
      have hi0 : i = 0 := by omega
      subst hi0
      exact ⟨fun _ _ _ => ⟨rfl, rfl⟩⟩
    · cases hs
  | unblock k =>
    simp only [step] at hs
    split at hs
    · rename_i i hk
      have : i < 1 := hi.waits _ (List.mem_of_getElem? hk)
      have hi0 : i = 0 := by omega
      subst hi0
      split at hs
      · rename_i s0 h0
        split at hs
        · cases hs
        · rename_i hrun
          cases hs
          refine ⟨fun _ _ hr => ?_⟩
          obtain ⟨s, hs, hsr⟩ := hr
          dsimp only at hs
          rw [h0] at hs
          cases hs
          exact absurd hsr hrun
      · cases hs
    · cases hs

theorem one_run : ∀ {es : List Event} {sig : Bool} {p p' : Process}, Inv 1 sig p → One p → run p es = some p' → One p'
  | [], sig, p, p', _, h, hs => by cases hs; exact h
  | e :: es, sig, p, p', hi, h, hs => by
    unfold run at hs
    split at hs
    · cases hs
    · rename_i s1 h1
      exact one_run (inv_step hi h1) (one_step hi h h1) hs

/-- A server that does not run never does so again. -/
theorem stays_step {p p' : Process} {e : Event} {i : Nat} (h : ¬ p.Running i) (hs : step p e = some p') : ¬ p'.Running i := by
  have key : ∀ (j : Nat) (f : LiveServer → LiveServer), (∀ s, (f s).running = true → s.running = true) →
      ¬ Running { p with servers := p.servers.modify j f } i := by
    rintro j f hf ⟨s, hs, hr⟩
    dsimp only at hs
    rw [getElem?_stop] at hs
    split at hs
    · obtain ⟨s0, h0, rfl⟩ := Option.map_eq_some_iff.1 hs
      exact h ⟨s0, h0, hf _ hr⟩
    · exact h ⟨s, hs, hr⟩
  cases e with
  | stop j =>
    simp only [step] at hs
    split at hs
    · cases hs
      exact key _ _ fun s h => by rw [stop_running] at h; cases h
    · cases hs
  | tick j =>
    simp only [step] at hs
    split at hs
    · cases hs
      refine key _ _ fun s h => ?_
      split at h
      · rw [stop_running] at h; cases h
      · exact h
    · cases hs
  | sigint =>
    simp only [step] at hs
    split at hs
    · cases hs; exact h
    · split at hs
      · cases hs
        exact key _ _ fun s h => h
      · cases hs; exact h
  | wait j | register j | unblock j =>
    simp only [step] at hs
    (repeat' split at hs) <;> cases hs <;> exact h

theorem stays_run : ∀ {es : List Event} {p p' : Process} {i : Nat}, ¬ p.Running i → run p es = some p' → ¬ p'.Running i
  | [], p, p', i, h, hs => by cases hs; exact h
  | e :: es, p, p', i, h, hs => by
    unfold run at hs
    split at hs
    · cases hs
    · rename_i s1 h1
      exact stays_run (stays_step h h1) hs

end Process
end Verif
