import Verif.Proofs.Stats
/-
C53: the event history of the rate limiter. C63: its call statistics.
-/
namespace Verif
open Stats (S Op Event Rec recs oldestRunning Fits Reports)

/-- C53. Missing: the last of the calls before the oldest running one, which is never reported
(`C53_last_withheld`). As long as the ring buffer is not overrun, a request from call number `m` on returns exactly
the calls `m, …, k - 2` where `k` is the oldest running call, or the next call if none is running. -/
theorem C53_history_partial {size : Nat} {ops : List Op} {s : S} (h : Stats.run (Stats.init size) ops = some s)
    (hf : Fits size ops) {m : Nat} (hm : m ≤ (recs ops).length) (hr : (recs ops).length ≤ m + size) :
    ∃ es, Stats.history s m = .ok es ∧ Reports es (recs ops) m (oldestRunning ops - 1) :=
  (Stats.inv_run ops s h hf).history hm hr

/-- C53: a request for more than the buffer holds is answered as one for the last `size` calls. -/
theorem C53_overrun {size : Nat} {ops : List Op} {s : S} (h : Stats.run (Stats.init size) ops = some s)
    (hf : Fits size ops) {m : Nat} (hr : m + size ≤ (recs ops).length) :
    ∃ es, Stats.history s m = .ok es ∧ Reports es (recs ops) ((recs ops).length - size) (oldestRunning ops - 1) := by
  have hi := Stats.inv_run ops s h hf
  obtain ⟨es, h1, h2⟩ := hi.history (m := (recs ops).length - size) (by omega) (by omega)
  refine ⟨es, ?_, h2⟩
  rw [← h1]
  simp only [Stats.history, hi.next, hi.size_eq]
  have e1 : (if size ≤ (recs ops).length - m then (recs ops).length - size else m) = (recs ops).length - size :=
    if_pos (by omega)
  have e2 : (if size ≤ (recs ops).length - ((recs ops).length - size) then (recs ops).length - size
      else (recs ops).length - size) = (recs ops).length - size := by split <;> rfl
  rw [e1, e2, if_neg (show ¬ (recs ops).length < m by omega),
    if_neg (show ¬ (recs ops).length < (recs ops).length - size by omega)]

/-- A client that asks from time to time. -/
inductive Poll where
  | op (o : Op)
  | poll

/-- What the client has seen: it always asks for the first call it has not seen. -/
def polling (s : S) (seen : List Event) : List Poll → Option (S × Res (List Event))
  | [] => some (s, .ok seen)
  | .op o :: ps =>
    match Stats.step s o with
    | none => none
    | some s' => polling s' seen ps
  | .poll :: ps =>
    match Stats.history s seen.length with
    | .ok es => polling s (seen ++ es) ps
    | .err c => some (s, .err c)
    | .died => some (s, .died)

/-- The calls in a schedule with polls. -/
def Poll.ops (ps : List Poll) : List Op := ps.filterMap fun
  | .op o => some o
  | .poll => none

/-- The client asks often enough: whenever it asks, it has seen all but the last `size` calls. Stated for the number of
calls that the code reports. -/
def AsksInTime (size : Nat) (done : List Op) (seen : Nat) : List Poll → Prop
  | [] => True
  | .op o :: ps => AsksInTime size (done ++ [o]) seen ps
  | .poll :: ps => (recs done).length ≤ seen + size ∧ AsksInTime size done (max seen (oldestRunning done - 1)) ps

theorem reports_stable {es : List Event} {cs : List Rec} {n : Nat} (h : Reports es cs 0 n) {o : Op} {s : S} {size : Nat}
    (hi : Stats.Inv size cs s) {s' : S} (hs : Stats.step s o = some s') : Reports es (Stats.recStep cs o) 0 n := by
  refine ⟨h.1, fun j hj => ?_⟩
  obtain ⟨st, bl, h1, h2⟩ := h.2 j hj
  refine ⟨st, bl, ?_, h2⟩
  cases o with
  | create now =>
    simp only [Stats.recStep]
    rw [List.getElem?_append_left (List.getElem?_eq_some_iff.mp h1).1]
    exact h1
  | finish k b now =>
    simp only [Stats.step] at hs
    split at hs
    · rename_i hm
      obtain ⟨c, h3, h4⟩ := (hi.handles k).mp hm
      simp only [Stats.recStep, h3]
      rw [List.getElem?_set]
      split
      · rename_i he
        subst he
        rw [h3] at h1
        cases h1
        simp at h4
      · exact h1
    · simp at hs

/-- C53 for a client that polls: it sees the calls 0, 1, 2, … in order, each once, without gaps, each with its
final values. (Missing: at any time the last finished call may not have been reported yet.) -/
theorem C53_poll_partial {size : Nat} (ps : List Poll) {s : S} {r : Res (List Event)}
    (h : polling (Stats.init size) [] ps = some (s, r)) (hf : Fits size (Poll.ops ps)) (ha : AsksInTime size [] 0 ps) :
    ∃ es, r = .ok es ∧ Reports es (recs (Poll.ops ps)) 0 es.length := by
  have main : ∀ (ps : List Poll) (done : List Op) (s0 : S) (seen : List Event),
      Stats.run (Stats.init size) done = some s0 → polling s0 seen ps = some (s, r) → Fits size (done ++ Poll.ops ps) →
      AsksInTime size done seen.length ps → Reports seen (recs done) 0 seen.length →
      ∃ es, r = .ok es ∧ Reports es (recs (done ++ Poll.ops ps)) 0 es.length := by
    intro ps
    induction ps with
    | nil =>
      intro done s0 seen _ hp _ _ hs
      cases hp
      exact ⟨seen, rfl, by simpa [Poll.ops] using hs⟩
    | cons p ps ih =>
      intro done s0 seen hr hp hf ha hs
      cases p with
      | op o =>
        simp only [polling] at hp
        cases hst : Stats.step s0 o with
        | none => simp [hst] at hp
        | some s1 =>
          simp only [hst] at hp
          have e : done ++ Poll.ops (.op o :: ps) = (done ++ [o]) ++ Poll.ops ps := by simp [Poll.ops]
          rw [e] at hf ⊢
          refine ih (done ++ [o]) s1 seen ?_ hp hf ha ?_
          · rw [Stats.run_append, hr]; simp [Stats.run, hst]
          · rw [Stats.recs_snoc]
            exact reports_stable hs (Stats.inv_run done s0 hr (hf.prefix.prefix)) hst
      | poll =>
        have hi := Stats.inv_run done s0 hr hf.prefix
        have hle : seen.length ≤ (recs done).length := by
          cases hn : seen.length with
          | zero => omega
          | succ n =>
            obtain ⟨_, _, h1, _⟩ := hs.2 n (by omega)
            have := (List.getElem?_eq_some_iff.mp h1).1
            omega
        obtain ⟨es, h1, h2, h3⟩ := hi.history hle ha.1
        simp only [polling, h1] at hp
        have hl : (seen ++ es).length = max seen.length (oldestRunning done - 1) := by
          simp only [List.length_append, h2, oldestRunning]; omega
        refine ih done s0 (seen ++ es) hr hp hf (hl ▸ ha.2) ⟨by omega, fun j hj => ?_⟩
        rw [List.length_append] at hj
        by_cases hjs : j < seen.length
        · obtain ⟨st, bl, h4, h5⟩ := hs.2 j (by omega)
          exact ⟨st, bl, h4, by rw [List.getElem?_append_left hjs]; exact h5⟩
        · obtain ⟨st, bl, h4, h5⟩ := h3 (j - seen.length) (by omega)
          have e : seen.length + (j - seen.length) = j := by omega
          rw [e] at h4 h5
          refine ⟨st, bl, by simpa using h4, ?_⟩
          rw [List.getElem?_append_right (by omega), h5]
          simp
  have := main ps [] (Stats.init size) [] rfl h (by simpa using hf) ha ⟨rfl, fun j hj => by simp at hj⟩
  simpa using this

/-- C63: the statistics are those of the list of calls: the number of running calls, of finished calls, of calls that were
blocked, the time finished calls were blocked in total and the time running calls have waited so far. -/
theorem C63_stats {size : Nat} {ops : List Op} {s : S} (h : Stats.run (Stats.init size) ops = some s)
    (hf : Fits size ops) (now : Int) : Stats.toProto s now =
      ((recs ops).countP (·.blocked.isNone), (recs ops).countP (·.blocked.isSome),
        (recs ops).countP (fun c => decide (0 < c.blocked.getD 0)), ((recs ops).map fun c => c.blocked.getD 0).sum,
        (((recs ops).filter (·.blocked.isNone)).map fun c => now - c.start).sum) := by
  have hi := Stats.inv_run ops s h hf
  have hp := hi.active_perm
  simp only [Stats.toProto, hi.completed, hi.limited, hi.total]
  rw [hp.length_eq, Stats.running_length, Stats.sum_perm (hp.map _),
    Stats.running_waits (recs ops) now _ fun i c h1 h2 => ?_]
  rw [hi.size_eq, hi.slots i c h1 (hf ops (List.prefix_refl _) i c h1 h2)]

/-! ### Concrete cases -/

theorem fits_of_takes {size : Nat} {ops : List Op} (h : ∀ n, n ≤ ops.length → ∀ i, i < (recs (ops.take n)).length →
    ((recs (ops.take n))[i]?).any (·.blocked.isNone) = true → (recs (ops.take n)).length ≤ i + size) : Fits size ops := by
  intro p hp i c hc hb
  have e := List.prefix_iff_eq_take.mp hp
  rw [e] at hc ⊢
  exact h p.length hp.length_le i (List.getElem?_eq_some_iff.mp hc).1 (by simp [hc, hb])

/-- Four calls in a buffer for three: the first is over at once, the second waits from 2 to 9, the third from 3 to 7, the
fourth is still running. -/
def statOps : List Op :=
  [.create 1, .finish 0 false 1, .create 2, .create 3, .finish 2 true 7, .finish 1 true 9, .create 11]

/-- The hypotheses of `C53_history_partial` and what it says: of the finished calls 1 and 2, only 1 is reported. -/
example : ∃ s, Stats.run (Stats.init 3) statOps = some s ∧ Fits 3 statOps ∧ 1 ≤ (recs statOps).length ∧
    (recs statOps).length ≤ 1 + 3 ∧ Stats.history s 1 = .ok [⟨1, 2, 7⟩] ∧ oldestRunning statOps = 3 ∧
    Stats.toProto s 20 = (1, 3, 2, 11, 9) := by
  refine ⟨_, rfl, fits_of_takes (by decide), by decide, by decide, by decide, by decide, by decide⟩

/-- The same with polls in between. -/
def pollOps : List Poll :=
  [.op (.create 1), .poll, .op (.finish 0 false 1), .poll, .op (.create 2), .op (.create 3), .op (.finish 2 true 7), .poll,
   .op (.finish 1 true 9), .poll, .op (.create 11), .poll, .op (.finish 3 false 11), .poll]

/-- The hypotheses of `C53_poll_partial`. -/
example : ∃ s, polling (Stats.init 3) [] pollOps = some (s, .ok [⟨0, 1, 0⟩, ⟨1, 2, 7⟩, ⟨2, 3, 4⟩]) ∧
    Fits 3 (Poll.ops pollOps) ∧ AsksInTime 3 [] 0 pollOps := by
  refine ⟨_, rfl, fits_of_takes (by decide), by simp only [pollOps, AsksInTime]; decide⟩

/-- C53 fails: a call is over, no call is running, and the history from this call on is empty. The documentation
(rate_limiter.h:232-234) promises it. -/
theorem C53_last_withheld : ∃ s, Stats.run (Stats.init 3) [.create 1, .finish 0 true 5] = some s ∧
    Fits 3 [.create 1, .finish 0 true 5] ∧ recs [.create 1, .finish 0 true 5] = [⟨1, some 4⟩] ∧
    Stats.history s 0 = .ok [] := by
  refine ⟨_, rfl, fits_of_takes (by decide), by decide, by decide⟩

/-- Why `Fits` is needed: a running call whose slot is reused. When it ends, the other call is taken for finished. -/
example : ∃ s, Stats.run (Stats.init 1) [.create 1, .create 2, .finish 0 true 5] = some s ∧ s.active = [0] ∧ s.handles = [1] ∧
    ¬ Fits 1 [.create 1, .create 2, .finish 0 true 5] := by
  refine ⟨_, rfl, by decide, by decide, fun h => ?_⟩
  have := h [.create 1, .create 2] ⟨[.finish 0 true 5], rfl⟩ 0 ⟨1, none⟩ rfl rfl
  simp [recs, Stats.recStep] at this

end Verif
