import Verif.Proofs.PyGrow
import Verif.Props.C79_C81_PyWriter
/-
C82: does `end_episode` of the Python writer start afresh? C83: when does `append` raise an exception because of the structure of the data?
-/
namespace Verif
namespace PyWriter
open TrajWriter (NamesAt HeldRef)

theorem journalFrom_append (s : PyWriter) (j : Journal) (a b : List Event) : s.journalFrom j (a ++ b) = (s.run a).journalFrom (s.journalFrom j a) b := by
  induction a generalizing s j with
  | nil => rfl
  | cons e a ih => exact ih _ _

/-- C82, unless a step is open: when `end_episode` with the default `clear_buffers=True` has returned, the history of every field is empty and
`episode_steps` is 0; the id of the episode is one that no earlier step had. -/
theorem C82_fresh_partial {s : PyWriter} (hs : s.Started) {pre : List Event} {timedOut : Bool} (hv : ∀ e ∈ pre, e.Valid)
    (ht : s.Tidy (pre ++ [.episodeEnd true timedOut])) (hr : ((s.run pre).handle (.episodeEnd true timedOut)).2 = .ok .done) :
    (∀ p c, (s.run (pre ++ [.episodeEnd true timedOut])).column p = some c → c.refs = []) ∧
    (s.run (pre ++ [.episodeEnd true timedOut])).episodeSteps = 0 ∧
    ∀ calls more, (s.run pre).calls = calls ++ more → (s.run (pre ++ [.episodeEnd true timedOut])).w.episode ≠ (s.w.run calls).episode := by
  have hv' : ∀ e ∈ pre ++ [.episodeEnd true timedOut], e.Valid := by
    intro e he
    rcases List.mem_append.mp he with he | he
    · exact hv e he
    · rw [List.mem_singleton.mp he]
      trivial
  obtain ⟨_, _, _, h4, h5⟩ := C79_history_partial hs hv' ht
  have hj : s.journal (pre ++ [.episodeEnd true timedOut]) = .empty := by
    rw [journal, journalFrom_append]
    show Journal.note _ _ ((s.run pre).handle (.episodeEnd true timedOut)).2 = _
    rw [hr]
    rfl
  rw [hj] at h4 h5
  refine ⟨fun p c hc => List.length_eq_zero_iff.mp (h4 p c hc).1, h5, fun calls more hcalls => ?_⟩
  obtain ⟨W, f, cols, h, _⟩ := hs.pyRun hv ht.prefix
  have hep : (s.run (pre ++ [.episodeEnd true timedOut])).w = ((s.run pre).w.handle (.episodeEnd true)).1 := by
    rw [pyRun_append]
    show ((s.run pre).handle (.episodeEnd true timedOut)).1.w = _
    have : ((s.run pre).pass (.episodeEnd true)).1.w = ((s.run pre).w.handle (.episodeEnd true)).1 := rfl
    simp only [PyWriter.handle]
    rcases hx : (s.run pre).pass (.episodeEnd true) with ⟨s', (_ | _ | _) | _ | _⟩ <;> rw [hx] at this <;> exact this
  have hreply : ((s.run pre).w.handle (.episodeEnd true)).2 = .ok .done := by
    have hr1 : ((s.run pre).pass (.episodeEnd true)).2 = .ok .done := by
      simp only [PyWriter.handle] at hr
      rcases hx : (s.run pre).pass (.episodeEnd true) with ⟨s', (_ | _ | _) | _ | _⟩ <;> rw [hx] at hr
      all_goals (cases timedOut <;> simp [expire] at hr)
    have hr2 : (match lift ((s.run pre).w.handle (.episodeEnd true)).2 with
      | .ok r => PyRes.ok (Reply.of r)
      | .raised x => .raised x
      | .died => .died) = .ok .done := hr1
    have hshape : ∀ x, ((s.run pre).w.handle (.episodeEnd true)).2 = .ok x → x = .done ∨ x = .waiting := by
      intro x hx
      simp only [TrajWriter.handle] at hx
      split at hx
      · cases hx
        exact .inr rfl
      · cases hy : ((s.run pre).w.endEpisode true).2 <;> rw [hy] at hx <;> cases hx
        exact .inl rfl
      · rename_i r _ _
        cases r <;> cases hx
        exact .inl rfl
    cases hx : ((s.run pre).w.handle (.episodeEnd true)).2 with
    | err c => rw [hx] at hr2; cases hr2
    | died => rw [hx] at hr2; cases hr2
    | ok y =>
      rcases hshape y hx with rfl | rfl
      · rfl
      · rw [hx] at hr2
        simp [lift, Reply.of] at hr2
  rcases TrajWriter.handle_clock (s.run pre).w (.episodeEnd true) with ⟨_, _, _, he, _⟩ | ⟨_, _, _, he, _⟩ | ⟨_, _, _, he⟩
  · cases he
  · rw [hep, he, h.runs]
    obtain ⟨g1, _⟩ := TrajWriter.Started.drawn hs.cpp h.valid
    have hvc : ∀ e ∈ calls ++ more, e.Valid := by rw [← hcalls]; exact h.valid
    obtain ⟨_, j, g2, g3⟩ := TrajWriter.Started.drawn hs.cpp (evs := calls) fun e he => hvc e (List.mem_append_left _ he)
    have hle := TrajWriter.Started.drawn_le hs.cpp hvc
    rw [g1, g3]
    intro heq
    have := hs.cpp.gen _ _ heq
    rw [hcalls] at this
    omega
  · exact absurd hreply (he true rfl)

/-- C83, for data that fits together, and unless the history was cleared in an open step: if, wherever two of the structures given to `append` both
have something, it is a leaf in both, a dictionary in both or a list of the same length in both, then no `append` fails because of the structure: it
raises `ValueError` exactly if a field is given again in the same step, and never `KeyError`, `TypeError` or `RuntimeError`. (It may still
raise what the C++ writer returns.) -/
theorem C83_fits_partial {s : PyWriter} (hs : s.Started) {evs : List Event} (hv : ∀ e ∈ evs, e.Valid) (ht : s.Tidy evs)
    (ha : ∀ d ∈ appended evs, ∀ d' ∈ appended evs, d.Agree d') {pre post : List Event} {data : PTree (Option Tensor)} {b : Bool}
    (he : evs = pre ++ .append data b :: post) :
    (((s.run pre).handle (.append data b)).2 = .raised .valueError ↔ Twice (s.journal pre) data) ∧
    ((s.run pre).handle (.append data b)).2 ≠ .raised .keyError ∧ ((s.run pre).handle (.append data b)).2 ≠ .raised .typeError ∧
    ((s.run pre).handle (.append data b)).2 ≠ .raised .runtimeError := by
  subst he
  have hd : data ∈ appended (pre ++ .append data b :: post) := List.mem_filterMap.mpr ⟨.append data b, by simp, rfl⟩
  have hsub : ∀ d ∈ appended pre, d ∈ appended (pre ++ .append data b :: post) := by
    intro d hdm
    rw [appended, List.filterMap_append]
    exact List.mem_append_left _ hdm
  have hvp : ∀ e ∈ pre, e.Valid := fun e he => hv e (List.mem_append_left _ he)
  obtain ⟨W, f, cols, h, _⟩ := hs.pyRun hvp ht.prefix
  have hfrom := hs.fromData hvp ht.prefix fun d h1 d' h2 => ha d (hsub d h1) d' (hsub d' h2)
  have := h.append_reply (data := data) (partialStep := b) (hv _ (by simp)) (by
    intro hne p k k' g1 g2
    rcases hfrom with hl | hl
    · rcases h.shape with ⟨hc, _⟩ | ⟨_, hsh⟩
      · exact absurd hc hne
      · exact absurd hl (hsh.node ())
    · obtain ⟨d, d1, d2⟩ := hl p k g1
      exact ha d (hsub d d1) data hd p k k' d2 g2)
  simp only [PyWriter.handle]
  rcases hx : (s.run pre).append data b with ⟨s', u | x | _⟩ <;> rw [hx] at this
  · simpa using this
  · simpa using this
  · simpa using this

/-! ### Examples -/
namespace PyDemo
open TrajWriter.TrajDemo (writer row good steps)

/-- A new writer: chunks of 2 steps, 4 references are kept. -/
def py : PyWriter := .new (writer (.constant 2 4 false))

theorem py_started : py.Started := ⟨TrajWriter.TrajDemo.started (by decide), rfl⟩

theorem row_wf (n : Nat) (h : n < 2 ^ 32) : (row n).WF :=
  ⟨rfl, fun w hw x hx => by simp [row, DType.bits] at hw hx; subst hw hx; exact h⟩

/-- Data with one field, and with two. -/
def one (k : String) (n : Nat) : PTree (Option Tensor) := .dict [(k, .leaf (some (row n)))]
def two (a b : Nat) : PTree (Option Tensor) := .dict [("b", .leaf (some (row b))), ("a", .leaf (some (row a)))]

theorem one_valid (k : String) (n : Nat) (hn : n < 2 ^ 32) (b : Bool) : (Event.append (one k n) b).Valid := by
  refine ⟨by simp [one, PTree.WF, PTree.WFFields], by simp [one], ⟨[.key k], by simp [one, PTree.at?, PTree.atField]⟩, fun p t hp => ?_⟩
  match p with
  | [] => simp [one, PTree.at?] at hp
  | .pos _ :: _ => simp [one, PTree.at?] at hp
  | [.key x] =>
    simp only [one, PTree.at?, PTree.atField] at hp
    split at hp
    · simp only [Option.some.injEq] at hp
      rw [← hp]
      exact row_wf _ hn
    · cases hp
  | .key x :: _ :: _ =>
    simp only [one, PTree.at?, PTree.atField] at hp
    split at hp <;> cases hp

theorem two_valid (n m : Nat) (hn : n < 2 ^ 32) (hm : m < 2 ^ 32) (b : Bool) : (Event.append (two n m) b).Valid := by
  refine ⟨by simp [two, PTree.WF, PTree.WFFields], by simp [two], ⟨[.key "a"], by simp [two, PTree.at?, PTree.atField]⟩, fun p t hp => ?_⟩
  match p with
  | [] => simp [two, PTree.at?] at hp
  | .pos _ :: _ => simp [two, PTree.at?] at hp
  | [.key x] =>
    simp only [two, PTree.at?, PTree.atField] at hp
    split at hp
    · simp only [Option.some.injEq] at hp
      rw [← hp]
      exact row_wf _ hm
    · split at hp
      · simp only [Option.some.injEq] at hp
        rw [← hp]
        exact row_wf _ hn
      · cases hp
  | .key x :: _ :: _ =>
    simp only [two, PTree.at?, PTree.atField] at hp
    split at hp
    · cases hp
    · split at hp <;> cases hp

/-- A column is configured before it is seen; it appears in the second step; the third step is made of two calls; the last one is still open. -/
def demo : List Event :=
  [.configure [.key "b"] 3 (some 1), .append (one "a" 1) false, .append (two 2 12) false, .append (one "b" 13) true,
   .append (one "a" 3) false, .append (one "c" 20) true]

theorem demo_valid : ∀ e ∈ demo, e.Valid := by
  intro e he
  simp only [demo, List.mem_cons, List.not_mem_nil, or_false] at he
  rcases he with rfl | rfl | rfl | rfl | rfl | rfl
  · trivial
  · exact one_valid _ _ (by decide) _
  · exact two_valid _ _ (by decide) (by decide) _
  · exact one_valid _ _ (by decide) _
  · exact one_valid _ _ (by decide) _
  · exact one_valid _ _ (by decide) _

theorem demo_tidy : py.Tidy demo := by
  intro pre t post he
  have hm : Event.episodeEnd true t ∈ demo := by rw [he]; simp
  simp [demo] at hm

/-- The history of C79. -/
example : ((py.run demo).column [.key "a"]).map ColHist.refs = some [some ⟨0, 0⟩, some ⟨0, 1⟩, some ⟨0, 2⟩, none] ∧
    ((py.run demo).column [.key "b"]).map ColHist.refs = some [none, some ⟨1, 0⟩, some ⟨1, 1⟩, none] ∧
    (py.journal demo).steps.map (fun st => st [.key "b"]) = [none, some (row 12), some (row 13), none] ∧
    (py.journal demo).isOpen = true ∧ (py.run demo).episodeSteps = 3 := by decide +kernel

/-- The options of C80. -/
example : ((py.run demo).w.chunkers.get? 1).map Chunker.opts = some (.constant 1 3 false) ∧
    ((py.run demo).w.chunkers.get? 0).map Chunker.opts = some (.constant 2 4 false) ∧
    py.wanted [.key "b"] py.w.opts demo = .constant 1 3 false ∧ py.wanted [.key "a"] py.w.opts demo = .constant 2 4 false := by decide +kernel

/-- The columns of C81: `history['a'][-3:3]` and `history['b'][2]`. -/
def picks : List Pick := [.slice [.key "a"] (some (-3)) (some 3), .item [.key "b"] 2]
def columns : List TrajCol := [⟨[⟨0, 1⟩, ⟨0, 2⟩], false⟩, ⟨[⟨1, 1⟩], true⟩]

/-- The item is written. -/
def finish : List Event := (.flushBegin 0) :: List.replicate 40 (.worker good)

example : picks.map (fun p => p.of (py.run demo)) = columns.map (fun c => some (.ok c)) := by decide +kernel
example : ((py.run demo).handle (.createItem "t" (.val 1) columns)).2 = .ok (.item 1) := by decide +kernel

/-- The columns of the only item that reaches the server. -/
def readBack (s : PyWriter) : Res (List Tensor) :=
  match serveAll .async .empty s.w.msgs with
  | .ok (_, (it, chunks) :: _) =>
    match asSampleLocal ⟨⟨1, 1, 1, .val 1, false⟩, it.traj, chunks⟩ with
    | .ok smp => smp.asTrajectory
    | .err c => .err c
    | .died => .died
  | _ => .died

example : readBack (py.run (demo ++ .createItem "t" (.val 1) columns :: finish)) = .ok [Tensor.stack .int32 [1] [row 2, row 3], row 13] := by
  decide +kernel

/-- The end of an episode in an open step. -/
def halfway : List Event := [.append (one "a" 1) true, .episodeBegin, .episodeEnd true false]

/-- C82 fails in an open step: `end_episode` returns and empties the history, but the step stays open; `episode_steps` is then -1, and the
next `append` raises `ValueError`, as if the field were given again. -/
theorem C82_open : py.Started ∧ ((py.run (halfway.take 2)).handle (.episodeEnd true false)).2 = .ok .done ∧
    ((py.run halfway).column [.key "a"]).map ColHist.refs = some [] ∧ (py.run halfway).episodeSteps = -1 ∧
    ((py.run halfway).handle (.append (one "a" 2) false)).2 = .raised .valueError :=
  ⟨py_started, by decide +kernel, by decide +kernel, by decide +kernel, by decide +kernel⟩

/-- The item cannot be written before the timeout of `end_episode`. -/
def late : List Event := [.append (one "a" 1) false, .createItem "t" (.val 1) [⟨[⟨0, 0⟩], false⟩], .episodeBegin, .episodeEnd true true]

/-- C82 fails when the timeout has passed: `end_episode` raises `DeadlineExceededError`, and contrary to its documentation neither the history nor
the id of the episode is reset. -/
theorem C82_timeout : py.Started ∧ ((py.run (late.take 3)).handle (.episodeEnd true true)).2 = .raised (.status .deadlineExceeded) ∧
    ((py.run late).column [.key "a"]).map ColHist.refs = some [some ⟨0, 0⟩] ∧ (py.run late).episodeSteps = 1 ∧
    (py.run late).w.episode = (py.run (late.take 1)).w.episode :=
  ⟨py_started, by decide +kernel, by decide +kernel, by decide +kernel, by decide +kernel⟩

/-- C82 fails without `clear_buffers`: `episode_steps`, documented as the number of steps since the last `end_episode`, goes on counting. -/
theorem C82_kept : py.Started ∧ ((py.run [.append (one "a" 1) false, .episodeBegin]).handle (.episodeEnd false false)).2 = .ok .done ∧
    (py.run [.append (one "a" 1) false, .episodeBegin, .episodeEnd false false]).episodeSteps = 1 :=
  ⟨py_started, by decide +kernel, by decide +kernel⟩

/-- The hypotheses of C82 can be met. -/
example : ((py.run (demo.take 3 ++ [.episodeBegin])).handle (.episodeEnd true false)).2 = .ok .done ∧
    (py.run (demo.take 3 ++ [.episodeBegin, .episodeEnd true false])).episodeSteps = 0 ∧
    (py.run (demo.take 3 ++ [.episodeBegin, .episodeEnd true false])).w.episode ≠ (py.run demo).w.episode := by decide +kernel

/-- The hypotheses of C83 can be met: dictionaries with different fields. -/
theorem demo_agree : ∀ d ∈ appended demo, ∀ d' ∈ appended demo, d.Agree d' := by
  have key : ∀ d ∈ appended demo, ∀ p k, d.kind? p = some k → k = if p = [] then .dict else .leaf := by
    intro d hd p k hk
    simp only [demo, appended, List.filterMap_cons, List.filterMap_nil, List.mem_cons, List.not_mem_nil, or_false] at hd
    have h1 : ∀ (x : String) n, (one x n).kind? p = some k → k = if p = [] then .dict else .leaf := by
      intro x n h
      match p with
      | [] => simpa [one, PTree.kind?] using h.symm
      | .pos _ :: _ => simp [one, PTree.kind?] at h
      | .key y :: q =>
        rw [one, PTree.kind?, PTree.kindField] at h
        split at h
        · cases q <;> simp [PTree.kind?] at h
          simp [h]
        · simp [PTree.kindField] at h
    have h2 : ∀ n m, (two n m).kind? p = some k → k = if p = [] then .dict else .leaf := by
      intro n m h
      match p with
      | [] => simpa [two, PTree.kind?] using h.symm
      | .pos _ :: _ => simp [two, PTree.kind?] at h
      | .key y :: q =>
        rw [two, PTree.kind?, PTree.kindField] at h
        split at h
        · cases q <;> simp [PTree.kind?] at h
          simp [h]
        · rw [PTree.kindField] at h
          split at h
          · cases q <;> simp [PTree.kind?] at h
            simp [h]
          · simp [PTree.kindField] at h
    rcases hd with rfl | rfl | rfl | rfl | rfl
    · exact h1 _ _ hk
    · exact h2 _ _ hk
    · exact h1 _ _ hk
    · exact h1 _ _ hk
    · exact h1 _ _ hk
  intro d hd d' hd' p k k' h1 h2
  rw [key d hd p k h1, key d' hd' p k' h2]

/-- A field that is given twice in a step. -/
example : Twice (py.journal demo) (one "c" 21) ∧ ((py.run demo).handle (.append (one "c" 21) false)).2 = .raised .valueError :=
  ⟨⟨by decide +kernel, Journal.given (one "c" 20), [.key "c"], row 21, row 20, rfl, by simp [one, PTree.at?, PTree.atField], by
    simp [Journal.given, one, PTree.at?, PTree.atField]⟩, by decide +kernel⟩

/-- C83 fails for a list that gets a new element with fields, for a field that becomes a dictionary, and for a dictionary that is replaced by
`None`: `append` raises an exception, although its documentation allows new fields and sub structures. -/
theorem C83_misfits : py.Started ∧
    ((py.run [.append (.seq [.leaf (some (row 1))]) false]).handle (.append (.seq [.leaf (some (row 1)), one "x" 2]) false)).2 = .raised .keyError ∧
    ((py.run [.append (one "a" 1) false]).handle (.append (.dict [("a", one "x" 2)]) false)).2 = .raised .keyError ∧
    ((py.run [.append (.dict [("a", one "x" 2)]) false]).handle (.append (.dict [("a", .leaf none), ("b", .leaf (some (row 1)))]) false)).2 =
      .raised .typeError :=
  ⟨py_started, by decide +kernel, by decide +kernel, by decide +kernel⟩

/-- C79 fails for data that is a single tensor: the structure is forgotten, and a later field is not in the history although its data was
written. -/
theorem C79_bare : py.Started ∧
    ((py.run [.append (.leaf (some (row 1))) false]).handle (.append (one "a" 2) false)).2 = .ok .done ∧
    (py.run [.append (.leaf (some (row 1))) false, .append (one "a" 2) false]).column [.key "a"] = none :=
  ⟨py_started, by decide +kernel, by decide +kernel⟩

/-- C79 fails for data without leaves: a first step `{}` is not counted, and the next step takes its place. -/
theorem C79_empty : py.Started ∧ ((py.run []).handle (.append (.dict []) false)).2 = .ok .done ∧
    (py.run [.append (.dict []) false, .append (one "a" 2) false]).episodeSteps = 1 :=
  ⟨py_started, by decide +kernel, by decide +kernel⟩

/-- C79 fails when the history was cleared in an open step: see `C82_open`. C81 fails for slices with another step: of `history['a'][::2]`, where a
chunk has three steps, the steps 0 and 1 are read back instead of 0 and 2. -/
theorem C81_stride :
    let s : PyWriter := .new (writer (.constant 3 4 false))
    let evs : List Event := [.append (one "a" 1) false, .append (one "a" 2) false, .append (one "a" 3) false]
    s.Started ∧ ((s.run evs).column [.key "a"]).map (fun c => c.slice none none (some 2)) = some (.ok ⟨[⟨0, 0⟩, ⟨0, 2⟩], false⟩) ∧
      readBack (s.run (evs ++ .createItem "t" (.val 1) [⟨[⟨0, 0⟩, ⟨0, 2⟩], false⟩] :: finish)) = .ok [Tensor.stack .int32 [1] [row 1, row 2]] :=
  ⟨⟨TrajWriter.TrajDemo.started (by decide), rfl⟩, by decide +kernel, by decide +kernel⟩

end PyDemo
end PyWriter
end Verif
