import Verif.Spec.Status
/-
C95: an error of the server reaches the user as the error it is: with its code and message, in Python as the exception for its code; a timeout of the rate limiter, and nothing else, ends a dataset
with a timeout. A call in Python that has a timeout waits at most as long and then raises `DeadlineExceededError`.

False: an unknown error "Stream removed" arrives as unavailable (`C95_code_is_false`), which is on purpose; `flush` and `server_info` with a timeout of 0 wait forever
(`C95_wait_is_false`).
-/
namespace Verif
namespace Status

theorem infixOf_iff (p : List Char) : ∀ t : List Char, infixOf p t = true ↔ ∃ a b, t = a ++ p ++ b
  | [] => by
    simp only [infixOf, List.isEmpty_iff]
    constructor
    · intro h; exact ⟨[], [], by simp [h]⟩
    · rintro ⟨a, b, h⟩
      have := congrArg List.length h
      simp at this
      exact List.eq_nil_of_length_eq_zero (by omega)
  | c :: cs => by
    simp only [infixOf, Bool.or_eq_true, infixOf_iff p cs, List.isPrefixOf_iff_prefix]
    constructor
    · rintro (⟨b, hb⟩ | ⟨a, b, h⟩)
      · exact ⟨[], b, by simpa using hb.symm⟩
      · exact ⟨c :: a, b, by simp [h]⟩
    · rintro ⟨a, b, h⟩
      cases a with
      | nil => exact Or.inl ⟨b, by simpa using h.symm⟩
      | cons x xs =>
        simp only [List.cons_append, List.cons.injEq] at h
        exact Or.inr ⟨xs, b, by simpa using h.2⟩

theorem contains_iff (t p : String) : contains t p = true ↔ Mentions t p := infixOf_iff _ _

/-- C95: the code and the message of an error arrive, except for the unknown error "Stream removed". -/
theorem C95_code_partial (s : Status) (hs : s.code ≠ 0) (hr : ¬ (s.code = 2 ∧ s.message = "Stream removed")) :
    fromGrpc (toGrpc s) = s ∧ fromTensorflow (toTensorflow s) = s := by
  have h1 : s.isStreamRemoved = false := by
    unfold isStreamRemoved
    simp only [decide_eq_false_iff_not]
    exact fun h => hr h.2
  simp [fromGrpc, toGrpc, fromTensorflow, toTensorflow, hs, h1]

/-- C95: success arrives as success and no error does. -/
theorem C95_ok (s : Status) : (fromGrpc (toGrpc s)).code = 0 ↔ s.code = 0 := by
  unfold fromGrpc toGrpc
  by_cases h : s.code = 0
  · simp [h, ok]
  · simp only [h, if_false]
    split
    · simp
    · simp [h]

/-- C95 as stated is false for "Stream removed". -/
theorem C95_code_is_false : ¬ ∀ s : Status, s.code ≠ 0 → (fromGrpc (toGrpc s)).code = s.code := by
  intro h
  exact absurd (h ⟨2, "Stream removed"⟩ (by decide)) (by decide)

/-- C95: an iterator reports the end exactly if it has a timeout and the table reports that the rate limiter has timed out; then it returns no error. -/
theorem C95_end (timeout : Duration) (s : Status) :
    (iterator timeout s).2 = true ↔ timeout ≠ none ∧ s.code = 4 ∧ Mentions s.message limiterMessage := by
  unfold iterator
  dsimp only
  by_cases h4 : s.code = 4
  · have h0 : s.code ≠ 0 := by rw [h4]; decide
    obtain ⟨e1, e2⟩ := C95_code_partial s h0 (by rw [h4]; exact fun h => absurd h.1 (by decide))
    rw [e1, e2]
    have e3 : toTensorflow s = s := by simp [toTensorflow, h0]
    rw [e3, if_neg h0]
    by_cases hc : timeout ≠ none ∧ isRateLimiterTimeout s = true
    · rw [if_pos hc]
      simp only [true_iff]
      refine ⟨hc.1, h4, (contains_iff _ _).1 ?_⟩
      have := hc.2
      unfold isRateLimiterTimeout at this
      simp only [Bool.and_eq_true] at this
      exact this.2
    · rw [if_neg hc]
      constructor
      · intro h; cases h
      · rintro ⟨ht, -, hm⟩
        exact absurd ⟨ht, by simp [isRateLimiterTimeout, h4, (contains_iff _ _).2 hm]⟩ hc
  · have hne : (toTensorflow (fromGrpc (toGrpc s))).code ≠ 4 := by
      unfold toTensorflow fromGrpc toGrpc
      (repeat' split) <;> simp_all [ok] <;> try decide
    constructor
    · intro h
      split at h
      · cases h
      · split at h
        · rename_i h0 hc
          have := hc.2
          unfold isRateLimiterTimeout fromTensorflow at this
          rw [if_neg h0] at this
          simp only [Bool.and_eq_true, decide_eq_true_eq] at this
          exact absurd this.1 hne
        · cases h
    · rintro ⟨-, h, -⟩
      exact absurd h h4

/-- C95: in particular for the status that the rate limiter returns. -/
theorem C95_end_limiter (ns : Int) : iterator (some ns) rateLimiterTimeout = (ok, true) ∧ (iterator none rateLimiterTimeout) = (rateLimiterTimeout, false) := by
  have h : isRateLimiterTimeout rateLimiterTimeout = true := by decide +kernel
  constructor
  · unfold iterator
    have e : fromTensorflow (toTensorflow (fromGrpc (toGrpc rateLimiterTimeout))) = rateLimiterTimeout := by decide +kernel
    dsimp only
    rw [e, if_neg (by decide +kernel), if_pos ⟨by simp, h⟩]
  · unfold iterator
    dsimp only
    rw [if_neg (by decide +kernel), if_neg (fun h => h.1 rfl)]
    decide +kernel

end Status

namespace PyError
open Status

theorem ofStatus_eq (s : Status) (hs : s.code ≠ 0) : ofStatus s = some (plain s, s.message) := by
  unfold ofStatus plain
  rw [if_neg hs]
  (repeat' split) <;> rfl

theorem runtime_iff (s : Status) (hs : s.code ≠ 0) : (plain s).isRuntimeError = true ↔ s.Runtime := by
  unfold plain Status.Runtime
  (repeat' split) <;> simp_all [isRuntimeError]

/-- What the `try` statements make of a status. -/
theorem translate_spec (part : String) (given : Bool) (s : Status) :
    (s.code = 0 → translate part given (ofStatus s) = none) ∧
    (s.Runtime → Mentions s.message part → given = true → translate part given (ofStatus s) = some (.deadlineExceeded, "")) ∧
    (s.code ≠ 0 → ¬ (s.Runtime ∧ Mentions s.message part ∧ given = true) → translate part given (ofStatus s) = some (plain s, s.message)) := by
  refine ⟨fun h => by simp [ofStatus, h, translate], fun hr hm hg => ?_, fun h hn => ?_⟩
  · rw [ofStatus_eq s hr.1]
    unfold translate
    simp [(runtime_iff s hr.1).2 hr, (contains_iff _ _).2 hm, hg]
  · rw [ofStatus_eq s h]
    unfold translate
    dsimp only
    rw [if_neg]
    intro hc
    simp only [Bool.and_eq_true] at hc
    exact hn ⟨(runtime_iff s h).1 hc.1.1, (contains_iff _ _).1 hc.1.2, hc.2⟩

/-- C95 for `flush` without a timeout or with one of at least a millisecond: C++ waits as long as documented; what it then returns is raised as `DeadlineExceededError` exactly if it
is about a timeout, and otherwise as the exception for its code. -/
theorem C95_flush_partial (timeout : Option Int) (ht : ∀ t, timeout = some t → 0 < t) (call : Duration → Status) (s : Status)
    (hs : call (documentedWait 1 timeout) = s) :
    (s.code = 0 → flush timeout call = none) ∧
    (s.Runtime → Mentions s.message "Timeout exceeded" → flush timeout call = some (.deadlineExceeded, "")) ∧
    (s.code ≠ 0 → ¬ (s.Runtime ∧ Mentions s.message "Timeout exceeded") → flush timeout call = some (plain s, s.message)) := by
  have hw : (if 0 < timeout.getD (-1) then some (millis (timeout.getD (-1))) else none) = documentedWait 1 timeout := by
    cases timeout with
    | none => rfl
    | some t => simp [documentedWait, ht t rfl]
  unfold flush
  dsimp only
  rw [hw, hs]
  obtain ⟨h1, h2, h3⟩ := translate_spec "Timeout exceeded" true s
  exact ⟨h1, fun a b => h2 a b rfl, fun a b => h3 a fun hc => b ⟨hc.1, hc.2.1⟩⟩

/-- C95 for `end_episode`, for all timeouts. -/
theorem C95_endEpisode (timeout : Option Int) (call : Duration → Status) (s : Status) (hs : call (documentedWait 1 timeout) = s) :
    (s.code = 0 → endEpisode timeout call = none) ∧
    (s.Runtime → Mentions s.message "Timeout exceeded" → timeout.isSome → endEpisode timeout call = some (.deadlineExceeded, "")) ∧
    (s.code ≠ 0 → ¬ (s.Runtime ∧ Mentions s.message "Timeout exceeded" ∧ timeout.isSome) → endEpisode timeout call = some (plain s, s.message)) := by
  have hw : timeout.map millis = documentedWait 1 timeout := by
    cases timeout with
    | none => rfl
    | some t => simp [documentedWait]
  unfold endEpisode
  rw [hw, hs]
  exact translate_spec "Timeout exceeded" _ s

/-- C95 for `server_info` without a timeout or with one of at least a second. -/
theorem C95_serverInfo_partial (timeout : Option Int) (ht : ∀ t, timeout = some t → 0 < t) (call : Duration → Status) (s : Status)
    (hs : call (documentedWait 1000 timeout) = s) :
    (s.code = 0 → serverInfo timeout call = none) ∧
    (s.Runtime → Mentions s.message "Deadline Exceeded" → timeout.isSome → serverInfo timeout call = some (.deadlineExceeded, "")) ∧
    (s.code ≠ 0 → ¬ (s.Runtime ∧ Mentions s.message "Deadline Exceeded" ∧ timeout.isSome) → serverInfo timeout call = some (plain s, s.message)) := by
  have hw : (if 0 < timeout.getD 0 then some (millis (1000 * timeout.getD 0)) else none) = documentedWait 1000 timeout := by
    cases timeout with
    | none => rfl
    | some t => simp [documentedWait, ht t rfl]
  unfold serverInfo
  dsimp only
  rw [hw, hs]
  exact translate_spec "Deadline Exceeded" _ s

/-- C95 as stated is false: with a timeout of 0 `flush` and `server_info` wait without a limit. -/
theorem C95_wait_is_false : ∃ call : Duration → Status, (∀ ns, call (some ns) = ⟨4, "Timeout exceeded with 1 items waiting"⟩) ∧
    flush (some 0) call = none ∧ serverInfo (some 0) call = none ∧ endEpisode (some 0) call = some (.deadlineExceeded, "") :=
  ⟨fun d => match d with | none => Status.ok | some _ => ⟨4, "Timeout exceeded with 1 items waiting"⟩, fun _ => rfl, by decide +kernel, by decide +kernel, by decide +kernel⟩

/-- A flush that times out, one that fails, and one that is refused. -/
theorem C95_demo :
    flush (some 5) (fun d => if d = some 5000000 then ⟨4, "Timeout exceeded with 1 items waiting"⟩ else ⟨0, ""⟩) = some (.deadlineExceeded, "") ∧
    flush (some 5) (fun _ => ⟨1, "Closed"⟩) = some (.runtimeError, "Closed") ∧
    flush none (fun _ => ⟨3, "Timeout exceeded"⟩) = some (.valueError, "Timeout exceeded") := by decide +kernel

end PyError
end Verif
