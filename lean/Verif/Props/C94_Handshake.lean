import Verif.Proofs.Handshake
/-
C94: a sampler made in the process of the server reads the table of the requested name directly; any other sampler, also one for a name the server does not know, goes through gRPC. No
object is used after it is freed, none leaks, and the exchange ends.

This is false when the stream is cut between the response and the copy (`C94_safe_is_false`): the server frees the pointer that the client is about to copy.
-/
namespace Verif
namespace Handshake

variable {async near : Bool} {cp sp : Nat} {tables : AMap String Nat} {name : String}

/-- C94, while the stream is not cut: nothing is used after it is freed, and once the client is done the sampler has the table itself if the client may access it directly, and otherwise the
name of the table. -/
theorem C94_source_partial {es : List Event} {s : State} (h : run (init async near cp sp tables name) es = some s) (hc : .cut ∉ es) :
    s.died = false ∧
    (∀ t, Direct near cp sp tables name t → ∀ r, s.client = .done r → source s = some (.direct (some t))) ∧
    ((∀ t, ¬ Direct near cp sp tables name t) → ∀ r, s.client = .done r → source s = some (.remote name)) := by
  have hx := exact_run (.start : Exact async near cp sp tables name _) hc h
  unfold Direct source
  cases hx with
  | start | startSent | first | firstSent => simp
  | far c q hn hcl => rcases hcl with rfl | rfl | rfl <;> simp_all
  | other c r hn hp hcl => rcases hcl with ⟨rfl, rfl⟩ | ⟨rfl, rfl⟩ <;> simp_all
  | unknown c hn hp ht hcl => rcases hcl with rfl | rfl <;> simp_all
  | second t c q r o hn hp ht hcl =>
    rcases hcl with ⟨rfl, rfl, rfl, rfl⟩ | ⟨rfl, rfl, rfl, rfl⟩ | ⟨rfl, rfl, rfl, rfl⟩ | ⟨rfl, rfl, rfl, rfl⟩ <;> simp
  | done t c hn hp ht hcl => rcases hcl with rfl | rfl <;> simp_all

/-- C94, cut or not: a sampler that reads a table directly reads the one of this name in the server of this process. -/
theorem C94_right_table {es : List Event} {s : State} {o : Option Nat} (h : run (init async near cp sp tables name) es = some s) (hs : source s = some (.direct o)) :
    ∃ t, o = some t ∧ Direct near cp sp tables name t := by
  have ha := always_run always_init h
  have hcl : s.client = .done none := by
    unfold source at hs
    split at hs
    · assumption
    · cases hs
    · cases hs
  have hcut := (ha.fine hcl).2
  have hx := exact_run (.start : Exact async near cp sp tables name _) (run_uncut h hcut) h
  unfold source at hs
  cases hx with
  | start | startSent | first | firstSent => cases hcl
  | far c q hn hc => rcases hc with rfl | rfl | rfl <;> cases hcl
  | other c r hn hp hc => rcases hc with ⟨rfl, rfl⟩ | ⟨rfl, rfl⟩ <;> cases hcl
  | unknown c hn hp ht hc => rcases hc with rfl | rfl <;> cases hcl
  | second t c q r o hn hp ht hc =>
    rcases hc with ⟨rfl, rfl, rfl, rfl⟩ | ⟨rfl, rfl, rfl, rfl⟩ | ⟨rfl, rfl, rfl, rfl⟩ | ⟨rfl, rfl, rfl, rfl⟩ <;> cases hcl
  | done t c hn hp ht hc =>
    rcases hc with rfl | rfl
    · cases hcl
    · cases hs
      exact ⟨t, rfl, hn, hp, ht⟩

/-- C94, cut or not: a handler that has ended has ended the call once and has freed what it allocated. One that has not ended has not ended the call. -/
theorem C94_freed {es : List Event} {s : State} (h : run (init async near cp sp tables name) es = some s) :
    (s.server = .done → s.finished.length = 1 ∧ ∀ t, s.heap ≠ .live t) ∧ (s.server ≠ .done → s.finished = []) := by
  have ha := always_run always_init h
  refine ⟨fun hd => ⟨(ha.late hd).1, (ha.late hd).2.2⟩, fun hd => ?_⟩
  cases hsv : s.server with
  | start => exact (ha.early (Or.inl hsv)).1
  | first => exact (ha.early (Or.inr hsv)).1
  | second => exact (ha.middle hsv).1
  | done => exact absurd hsv hd

/-- C94, cut or not: the exchange takes at most nine steps, and while a side is not done there is a next one; if the stream is not cut, one that is not a cut. -/
theorem C94_ends {es : List Event} {s : State} (h : run (init async near cp sp tables name) es = some s) :
    es.length ≤ 9 ∧ (s.Over ∨ ∃ e s', step s e = some s' ∧ (s.cut = false → e ≠ .cut)) := by
  refine ⟨?_, ?_⟩
  · have := left_run h
    have h9 : left (init async near cp sp tables name) = 9 := rfl
    omega
  · cases hc : s.cut with
    | true =>
      rcases cut_progress hc with ho | ⟨e, s', he⟩
      · exact Or.inl ho
      · exact Or.inr ⟨e, s', he, (by simp)⟩
    | false =>
      have hx := exact_run (.start : Exact async near cp sp tables name _) (run_uncut h hc) h
      rcases exact_progress hx with ho | ⟨e, s', hne, he⟩
      · exact Or.inl ho
      · exact Or.inr ⟨e, s', he, fun _ => hne⟩

/-- C94 as stated is false for either server: the stream is cut after the client has read the address and before it copies the pointer. -/
theorem C94_safe_is_false : ¬ ∀ (async near : Bool) (cp sp : Nat) (tables : AMap String Nat) (name : String) (es : List Event) (s : State),
    run (init async near cp sp tables name) es = some s → s.died = false := by
  intro h
  have := h true true 7 7 (AMap.empty.insert "t" 3) "t" [.serverStart, .clientWrite, .serverRead, .clientRead, .cut, .serverReadFails, .clientCopy] _ rfl
  exact absurd this (by decide)

/-- The same with the synchronous server. -/
theorem C94_safe_is_false_sync : (run (init false true 7 7 (AMap.empty.insert "t" 3) "t")
    [.serverStart, .clientWrite, .serverRead, .clientRead, .cut, .serverReadFails, .clientCopy]).map (fun s => s.died) = some true := by decide

/-- A sampler that gets its table. -/
theorem C94_demo : (run (init true true 7 7 (AMap.empty.insert "t" 3) "t")
    [.serverStart, .clientWrite, .serverRead, .clientRead, .clientCopy, .clientConfirm, .serverRead, .clientFinish]).map
      (fun s => (source s, s.heap, s.finished, s.died)) = some (some (.direct (some 3)), .freed, [none], false) := by decide

/-- Samplers of another process, for another name, and from another machine. -/
theorem C94_demo_remote :
    (run (init false true 8 7 (AMap.empty.insert "t" 3) "t") [.serverStart, .clientWrite, .serverRead, .clientRead]).map (fun s => (source s, s.heap, s.client)) =
      some (some (.remote "t"), .none, .done (some .failedPrecondition)) ∧
    (run (init false true 7 7 (AMap.empty.insert "t" 3) "u") [.serverStart, .clientWrite, .serverRead, .clientReadFails]).map (fun s => (source s, s.client)) =
      some (some (.remote "u"), .done (some .notFound)) ∧
    (run (init false false 7 7 (AMap.empty.insert "t" 3) "t") [.serverStart, .clientWrite, .clientReadFails]).map (fun s => (source s, s.client)) =
      some (some (.remote "t"), .done (some .internal)) := by decide

/-- A client that does not confirm makes the server with callbacks end the call twice; the client of the library always confirms (`C94_freed`). -/
theorem C94_unconfirmed :
    (confirmation { init true true 7 7 AMap.empty "t" with server := .second, heap := .live 3 } ⟨7, "t", false⟩).finished = [some .internal, none] := rfl

end Handshake
end Verif
